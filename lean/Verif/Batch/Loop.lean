import Verif.Batch.Lemmas
import Mathlib.Tactic.Ring
import Mathlib.Tactic.Linarith
import Mathlib.Algebra.BigOperators.Group.List.Basic

namespace RoughPy.Batch

open RoughPy.Tensor

variable {K : Type}

/-! ### a kernel on memory -/

theorem addr_one (b : ℤ) (size s i : ℕ) :
    (⟨b, 1⟩ : Iter).addr size s i = b + ((s + i : ℕ) : ℤ) * size := by
  unfold Iter.addr; push_cast; ring

theorem onMem_sim {α : Type} {size : ℕ} (hs : 0 < size) (ob : ℤ) (abs : List ℤ) (args : List (Buf K))
    (hlen : abs.length = args.length) (p : Prog K α) (m : Mem K) (out : Buf K)
    (hout : ∀ i < out.size, m (ob + (i : ℤ) * size) = some (out.get i))
    (hargs : ∀ (j : ℕ) (b : ℤ) (B : Buf K), abs[j]? = some b → args[j]? = some B →
      ∀ i < B.size, m (b + (i : ℤ) * size) = some (B.get i))
    (hap : ∀ (j : ℕ) (b : ℤ) (B : Buf K), abs[j]? = some b → args[j]? = some B →
      ∀ i < B.size, ∀ k < out.size, b + (i : ℤ) * size ≠ ob + (k : ℤ) * size)
    (out' : Buf K) (a : α) (h : p.onRow args out = some (out', a)) :
    ∃ m', p.onMem size (⟨ob, 1⟩ :: abs.map fun b => ⟨b, 1⟩) m = some (m', a) ∧
      out'.size = out.size ∧ (∀ i < out.size, m' (ob + (i : ℤ) * size) = some (out'.get i)) ∧
      ∀ x, (∀ i < out.size, x ≠ ob + (i : ℤ) * size) → m' x = m x := by
  induction p generalizing m out with
  | done b =>
    cases h
    exact ⟨m, rfl, rfl, hout, fun _ _ => rfl⟩
  | fail => cases h
  | read j s i k ih =>
    cases j with
    | zero =>
      change (out.read (s + i)).bind _ = _ at h
      unfold Buf.read at h
      split at h
      · rename_i hi
        change (k (out.get (s + i))).onRow args out = _ at h
        obtain ⟨m', e, r⟩ := ih (out.get (s + i)) m out hout hargs hap h
        refine ⟨m', ?_, r⟩
        show (m ((⟨ob, 1⟩ : Iter).addr size s i)).bind _ = _
        rw [addr_one, hout _ hi]
        exact e
      · cases h
    | succ j =>
      change (args[j]?.bind _) = _ at h
      cases hB : args[j]? with
      | none => rw [hB] at h; cases h
      | some B =>
        rw [hB] at h
        change (B.read (s + i)).bind _ = _ at h
        unfold Buf.read at h
        split at h
        · rename_i hi
          change (k (B.get (s + i))).onRow args out = _ at h
          obtain ⟨m', e, r⟩ := ih (B.get (s + i)) m out hout hargs hap h
          refine ⟨m', ?_, r⟩
          have hj : j < abs.length := by
            rw [hlen]; exact (List.getElem?_eq_some_iff.1 hB).1
          have hb : abs[j]? = some abs[j] := List.getElem?_eq_getElem hj
          show (((⟨ob, 1⟩ : Iter) :: abs.map fun b => (⟨b, 1⟩ : Iter))[j + 1]?).bind _ = _
          rw [List.getElem?_cons_succ, List.getElem?_map, hb]
          show (m ((⟨abs[j], 1⟩ : Iter).addr size s i)).bind _ = _
          rw [addr_one, hargs j _ B hb hB _ hi]
          exact e
        · cases h
  | write s i v k ih =>
    change (out.write (s + i) v).bind _ = _ at h
    unfold Buf.write at h
    split at h
    · rename_i hi
      change k.onRow args { out with get := Function.update out.get (s + i) v } = _ at h
      have inj : ∀ x y : ℕ, ob + (x : ℤ) * size = ob + (y : ℤ) * size → x = y := by
        intro x y hxy
        have h1 : (x : ℤ) * size = (y : ℤ) * size := by linarith
        have h2 : (size : ℤ) ≠ 0 := by exact_mod_cast hs.ne'
        exact_mod_cast mul_right_cancel₀ h2 h1
      obtain ⟨m', e, r1, r2, r3⟩ := ih
        (Function.update m (ob + ((s + i : ℕ) : ℤ) * size) (some v))
        { out with get := Function.update out.get (s + i) v } (by
          intro x hx
          by_cases hxe : x = s + i
          · subst hxe
            rw [Function.update_self]; simp
          · rw [Function.update_of_ne fun hc => hxe (inj _ _ hc)]
            simp only [Function.update_of_ne hxe]
            exact hout x hx) (by
          intro j b B hb hB x hx
          rw [Function.update_of_ne (hap j b B hb hB x hx _ hi)]
          exact hargs j b B hb hB x hx) hap h
      refine ⟨m', ?_, r1, r2, fun x hx => ?_⟩
      · show (if (m ((⟨ob, 1⟩ : Iter).addr size s i)).isSome then _ else _) = _
        rw [addr_one, hout _ hi]
        exact e
      · rw [r3 x hx, Function.update_of_ne (hx _ hi)]
    · cases h

/-! ### the indices of the batch -/

/-- the `k`-th index in row-major order -/
def unravel : List ℕ → ℕ → List ℕ
  | [], _ => []
  | n :: ns, k => (k / ns.prod % n) :: unravel ns k

/-- the number of an index in row-major order -/
def ravel : List ℕ → List ℕ → ℕ
  | _ :: ns, i :: is => i * ns.prod + ravel ns is
  | _, _ => 0

theorem unravel_zero (lead : List ℕ) : unravel lead 0 = lead.map fun _ => 0 := by
  induction lead with
  | nil => rfl
  | cons n ns ih => simp [unravel, ih]

theorem advance_unravel (lead : List ℕ) (hpos : 0 < lead.prod) (k : ℕ) :
    advance lead (unravel lead k) = (unravel lead (k + 1), decide (lead.prod ∣ k + 1)) := by
  induction lead with
  | nil => simp [unravel, advance]
  | cons n ns ih =>
    rw [List.prod_cons] at hpos
    have hn : 0 < n := Nat.pos_of_mul_pos_right hpos
    have hp : 0 < ns.prod := Nat.pos_of_mul_pos_left hpos
    have ih := ih hp
    unfold unravel advance
    rw [ih]
    dsimp only
    rw [Nat.succ_div]
    by_cases hd : ns.prod ∣ k + 1
    · rw [if_pos (by simpa using hd), if_pos hd, List.prod_cons]
      have hq : k + 1 = ns.prod * (k / ns.prod + 1) := by
        have h1 : (k + 1) / ns.prod = k / ns.prod + 1 := by rw [Nat.succ_div, if_pos hd]
        rw [← h1, Nat.mul_div_cancel' hd]
      have hdn : n * ns.prod ∣ k + 1 ↔ n ∣ k / ns.prod + 1 := by
        generalize k / ns.prod = q at hq
        rw [hq, mul_comm n]
        exact Nat.mul_dvd_mul_iff_left hp
      have hm : (k / ns.prod + 1) % n = (k / ns.prod % n + 1) % n := (Nat.mod_add_mod _ _ _).symm
      have hlt := Nat.mod_lt (k / ns.prod) hn
      by_cases hc : k / ns.prod % n + 1 < n
      · rw [if_pos hc, hm, Nat.mod_eq_of_lt hc]
        have : ¬ n * ns.prod ∣ k + 1 := by
          rw [hdn, Nat.dvd_iff_mod_eq_zero, hm, Nat.mod_eq_of_lt hc]; omega
        simp [this]
      · rw [if_neg hc]
        have he : k / ns.prod % n + 1 = n := by omega
        have hz : (k / ns.prod + 1) % n = 0 := by rw [hm, he, Nat.mod_self]
        have : n * ns.prod ∣ k + 1 := hdn.2 (Nat.dvd_of_mod_eq_zero hz)
        simp [this, hz]
    · rw [if_neg (by simpa using hd), if_neg hd, List.prod_cons]
      have : ¬ n * ns.prod ∣ k + 1 := fun h => hd ((Dvd.intro_left n rfl).trans h)
      simp [this]

theorem InShape.prod_pos {idx lead : List ℕ} (h : InShape idx lead) : 0 < lead.prod := by
  induction h with
  | nil => simp
  | cons h _ ih => rw [List.prod_cons]; exact Nat.mul_pos (by omega) ih

theorem unravel_inShape (lead : List ℕ) (hpos : 0 < lead.prod) (k : ℕ) :
    InShape (unravel lead k) lead := by
  induction lead with
  | nil => exact List.Forall₂.nil
  | cons n ns ih =>
    rw [List.prod_cons] at hpos
    exact List.Forall₂.cons (Nat.mod_lt _ (Nat.pos_of_mul_pos_right hpos))
      (ih (Nat.pos_of_mul_pos_left hpos))

theorem ravel_unravel (lead : List ℕ) (hpos : 0 < lead.prod) (k : ℕ) :
    ravel lead (unravel lead k) = k % lead.prod := by
  induction lead with
  | nil => simp [unravel, ravel, Nat.mod_one]
  | cons n ns ih =>
    rw [List.prod_cons] at hpos
    have ih := ih (Nat.pos_of_mul_pos_left hpos)
    unfold unravel ravel
    rw [ih, List.prod_cons, mul_comm n, Nat.mod_mul]
    ring

theorem ravel_lt {idx lead : List ℕ} (h : InShape idx lead) : ravel lead idx < lead.prod := by
  induction h with
  | nil => simp [ravel]
  | @cons i n is ns hi _ ih =>
    unfold ravel
    rw [List.prod_cons]
    calc i * ns.prod + ravel ns is < i * ns.prod + ns.prod := by omega
      _ = (i + 1) * ns.prod := by ring
      _ ≤ n * ns.prod := Nat.mul_le_mul_right _ hi

theorem ravel_inj {idx idx' lead : List ℕ} (h : InShape idx lead) (h' : InShape idx' lead)
    (he : ravel lead idx = ravel lead idx') : idx = idx' := by
  induction h generalizing idx' with
  | nil => cases h'; rfl
  | @cons i n is ns hi ht ih =>
    cases h' with
    | @cons i' _ is' _ hi' ht' =>
      unfold ravel at he
      have l1 := ravel_lt ht
      have l2 := ravel_lt ht'
      have hp : 0 < ns.prod := by omega
      have e1 : i = i' := by
        have h1 : (ravel ns is + i * ns.prod) / ns.prod = i := by
          rw [Nat.add_mul_div_right _ _ hp, Nat.div_eq_of_lt l1, Nat.zero_add]
        have h2 : (ravel ns is' + i' * ns.prod) / ns.prod = i' := by
          rw [Nat.add_mul_div_right _ _ hp, Nat.div_eq_of_lt l2, Nat.zero_add]
        rw [← h1, ← h2, Nat.add_comm, he, Nat.add_comm]
      subst e1
      rw [ih ht' (by omega)]

/-! ### addresses -/

theorem getPtr_eq (data : ℤ) (idx : List ℕ) (strides : List ℤ) :
    getPtr data idx strides =
      data + (List.zipWith (fun (i : ℕ) (s : ℤ) => (i : ℤ) * s) idx strides).sum := by
  induction idx generalizing data strides with
  | nil => simp [getPtr]
  | cons i is ih =>
    cases strides with
    | nil => simp [getPtr]
    | cons s ss =>
      unfold getPtr
      rw [ih, List.zipWith_cons_cons, List.sum_cons]; ring

theorem elementAddr_last {a : Arr} {dt : DType} {lead : List ℕ} {L size : ℕ}
    (hb : IsBatch a dt lead L) (hc : ContiguousRows a size) {idx : List ℕ} (hi : InShape idx lead)
    (i : ℕ) : elementAddr a (idx ++ [i]) = getPtr a.data (idx ++ [0]) a.strides + (i : ℤ) * size := by
  have hl : idx.length = lead.length := List.Forall₂.length_eq hi
  have hs : a.strides.length = lead.length + 1 := by rw [hb.strides_eq, hb.shape_eq]; simp
  rw [getPtr_eq]
  unfold elementAddr
  obtain ⟨pre, hp⟩ : ∃ pre, a.strides = pre ++ [(size : ℤ)] := by
    rw [ContiguousRows, List.getLast?_eq_some_iff] at hc
    exact hc
  rw [hp] at hs ⊢
  have hpl : idx.length = pre.length := by simp at hs; omega
  rw [List.zipWith_append hpl, List.zipWith_append hpl]
  simp
  ring

theorem coreStride_of {a : Arr} {size : ℕ} (h : ContiguousRows a size) (hs : 0 < size)
    (hs2 : size < 2 ^ 64) : coreStride a size = some 1 := by
  unfold coreStride
  rw [h]
  have h1 : ((size : ℤ) % 2 ^ 64) = size := Int.emod_eq_of_lt (by omega) (by exact_mod_cast hs2)
  rw [Option.map_some, h1, Int.ediv_self (by omega)]

/-! ### the loop -/

/-- an operand: its array, how long its rows are, and the rows -/
structure Operand (K : Type) where
  arr : Arr
  len : ℕ
  val : List ℕ → ℕ → K

/-- a row of an operand -/
def Operand.row (o : Operand K) (idx : List ℕ) : Buf K := ⟨o.len, o.val idx⟩

/-- what the loops rely on -/
structure Operand.Good (o : Operand K) (m : Mem K) (dt : DType) (lead : List ℕ) (size : ℕ) : Prop where
  isBatch : IsBatch o.arr dt lead o.len
  contiguous : ContiguousRows o.arr size
  holds : HoldsRows m o.arr lead o.len o.val

theorem mapM_coreStride {ops : List Arr} {size : ℕ} (h : ∀ a ∈ ops, coreStride a size = some 1) :
    ops.mapM (fun a => coreStride a size) = some (ops.map fun _ => (1 : ℤ)) := by
  induction ops with
  | nil => rfl
  | cons a as ih =>
    rw [List.mapM_cons, h a (by simp), ih fun b hb => h b (by simp [hb])]
    rfl

theorem zipWith_map_one (f : Arr → ℤ → Iter) (l : List Arr) :
    List.zipWith f l (l.map fun _ => (1 : ℤ)) = l.map fun a => f a 1 := by
  induction l with
  | nil => rfl
  | cons a l ih => rw [List.map_cons, List.zipWith_cons_cons, ih, List.map_cons]

theorem oneRow_sim {size : ℕ} (hs : 0 < size) (hs2 : size < 2 ^ 64) {dt : DType} {lead : List ℕ}
    {m : Mem K} {o : Operand K} {args : List (Operand K)} (ho : o.Good m dt lead size)
    (ha : ∀ a ∈ args, a.Good m dt lead size)
    (hap : ∀ a ∈ args, Apart a.arr o.arr lead a.len o.len) (p : Prog K Unit) {idx : List ℕ}
    (hi : InShape idx lead) {b : Buf K}
    (hp : p.eff (args.map fun a => a.row idx) (o.row idx) = some b) :
    ∃ m', oneRow size (o.arr :: args.map Operand.arr) p idx m = some m' ∧
      (∀ i < o.len, m' (elementAddr o.arr (idx ++ [i])) = some (b.get i)) ∧
      ∀ x, (∀ i < o.len, x ≠ elementAddr o.arr (idx ++ [i])) → m' x = m x := by
  have hrow : p.onRow (args.map fun a => a.row idx) (o.row idx) = some (b, ()) := by
    rw [Prog.onRow_unit, hp]; rfl
  have hoa := fun i => elementAddr_last ho.isBatch ho.contiguous hi i
  obtain ⟨m', e, e1, e2, e3⟩ := onMem_sim hs (getPtr o.arr.data (idx ++ [0]) o.arr.strides)
    (args.map fun a => getPtr a.arr.data (idx ++ [0]) a.arr.strides) (args.map fun a => a.row idx)
    (by simp) p m (o.row idx) (by
      intro i hi'
      rw [← hoa]
      exact ho.holds idx hi i hi') (by
      intro j c B hc hB i hi'
      rw [List.getElem?_map] at hc hB
      cases hj : args[j]? with
      | none => rw [hj] at hc; cases hc
      | some a =>
        rw [hj] at hc hB
        cases hc; cases hB
        have hg := ha a (List.mem_of_getElem? hj)
        rw [← elementAddr_last hg.isBatch hg.contiguous hi]
        exact hg.holds idx hi i hi') (by
      intro j c B hc hB i hi' k hk
      rw [List.getElem?_map] at hc hB
      cases hj : args[j]? with
      | none => rw [hj] at hc; cases hc
      | some a =>
        rw [hj] at hc hB
        cases hc; cases hB
        have hg := ha a (List.mem_of_getElem? hj)
        rw [← elementAddr_last hg.isBatch hg.contiguous hi, ← hoa]
        intro hc
        exact hap a (List.mem_of_getElem? hj) _ ⟨idx, i, hi, hi', rfl⟩ ⟨idx, k, hi, hk, hc⟩)
    b () hrow
  refine ⟨m', ?_, ?_, ?_⟩
  · unfold oneRow
    rw [mapM_coreStride (by
      intro a hmem
      rcases List.mem_cons.1 hmem with rfl | hmem
      · exact coreStride_of ho.contiguous hs hs2
      · obtain ⟨c, hc, rfl⟩ := List.mem_map.1 hmem
        exact coreStride_of (ha c hc).contiguous hs hs2)]
    simp only [Option.bind_eq_bind, Option.bind_some]
    rw [zipWith_map_one, List.map_cons, List.map_map]
    rw [List.map_map] at e
    have : (fun b : ℤ => (⟨b, 1⟩ : Iter)) ∘
        (fun a : Operand K => getPtr a.arr.data (idx ++ [0]) a.arr.strides) =
        (fun a : Arr => (⟨getPtr a.data (idx ++ [0]) a.strides, 1⟩ : Iter)) ∘ Operand.arr := rfl
    rw [this] at e
    rw [e]
    rfl
  · intro i hi'
    rw [hoa]
    exact e2 i hi'
  · intro x hx
    exact e3 x fun i hi' => by rw [← hoa]; exact hx i hi'

theorem rows_sim {size : ℕ} (hs : 0 < size) (hs2 : size < 2 ^ 64) {dt : DType} {lead : List ℕ}
    {m : Mem K} {o : Operand K} {args : List (Operand K)} (ho : o.Good m dt lead size)
    (ha : ∀ a ∈ args, a.Good m dt lead size)
    (hap : ∀ a ∈ args, Apart a.arr o.arr lead a.len o.len) (hno : NoOverlap o.arr lead o.len)
    (p : Prog K Unit) (res : List ℕ → Buf K)
    (hres : ∀ idx, InShape idx lead →
      p.eff (args.map fun a => a.row idx) (o.row idx) = some (res idx)) :
    ∃ m', outerLoop size o.arr (args.map Operand.arr) p m = some m' ∧
      HoldsRows m' o.arr lead o.len (fun idx i => (res idx).get i) ∧
      OnlyChanges m m' o.arr lead o.len := by
  have hlead : o.arr.shape.dropLast = lead := by rw [ho.isBatch.shape_eq]; simp
  unfold outerLoop
  rw [hlead, ← unravel_zero]
  have key : ∀ n k (m1 : Mem K), k + n = lead.prod →
      (∀ idx, InShape idx lead → ∀ i < o.len, m1 (elementAddr o.arr (idx ++ [i])) =
        some (if ravel lead idx < k then (res idx).get i else o.val idx i)) →
      OnlyChanges m m1 o.arr lead o.len →
      ∃ m', rows size (o.arr :: args.map Operand.arr) p lead n (unravel lead k) m1 = some m' ∧
        (∀ idx, InShape idx lead → ∀ i < o.len, m' (elementAddr o.arr (idx ++ [i])) =
          some ((res idx).get i)) ∧
        OnlyChanges m m' o.arr lead o.len := by
    intro n
    induction n with
    | zero =>
      intro k m1 hk h1 h2
      refine ⟨m1, rfl, fun idx hi i hi' => ?_, h2⟩
      rw [h1 idx hi i hi', if_pos (by have := ravel_lt hi; omega)]
    | succ n ih =>
      intro k m1 hk h1 h2
      have hpos : 0 < lead.prod := by omega
      have hin := unravel_inShape lead hpos k
      have hrk : ravel lead (unravel lead k) = k := by
        rw [ravel_unravel lead hpos, Nat.mod_eq_of_lt (by omega)]
      obtain ⟨m2, e, r1, r2⟩ := oneRow_sim hs hs2
        (m := m1) (o := ⟨o.arr, o.len, fun idx i => if ravel lead idx < k then (res idx).get i else o.val idx i⟩)
        (args := args) ⟨ho.isBatch, ho.contiguous, h1⟩ (by
          intro a hmem
          have hg := ha a hmem
          refine ⟨hg.isBatch, hg.contiguous, fun idx hi i hi' => ?_⟩
          rw [h2 _ (hap a hmem _ ⟨idx, i, hi, hi', rfl⟩)]
          exact hg.holds idx hi i hi') hap p hin (b := res (unravel lead k)) (by
          have : (⟨o.arr, o.len, fun idx i => if ravel lead idx < k then (res idx).get i
              else o.val idx i⟩ : Operand K).row (unravel lead k) = o.row (unravel lead k) := by
            unfold Operand.row
            simp [hrk]
          rw [this]
          exact hres _ hin)
      obtain ⟨m', e', r⟩ := ih (k + 1) m2 (by omega) (by
        intro idx hi i hi'
        by_cases hk' : ravel lead idx = k
        · have : idx = unravel lead k := ravel_inj hi hin (by rw [hk', hrk])
          subst this
          rw [r1 i hi', if_pos (by omega)]
        · rw [r2 _ fun j hj hc => hk' (by
            rw [(hno _ _ _ _ hi hin hi' hj hc).1, hrk]), h1 idx hi i hi']
          have : (ravel lead idx < k ↔ ravel lead idx < k + 1) := by omega
          simp only [this]) (by
        intro x hx
        rw [r2 x fun i hi' hc => hx ⟨_, i, hin, hi', hc⟩]
        exact h2 x hx)
      refine ⟨m', ?_, r⟩
      show (oneRow size (o.arr :: args.map Operand.arr) p (unravel lead k) m1).bind _ = _
      rw [e]
      show rows size (o.arr :: args.map Operand.arr) p lead n (advance lead (unravel lead k)).1 m2 = _
      rw [advance_unravel lead hpos]
      exact e'
  exact key lead.prod 0 m (by omega) (by
    intro idx hi i hi'
    rw [if_neg (by omega)]
    exact ho.holds idx hi i hi') fun _ _ => rfl

/-! ### the checks -/

theorem checkArgs_ok {o : Arr} {dt : DType} {lead : List ℕ} {L : ℕ} (ho : IsBatch o dt lead L)
    (args : List Arr) (ha : ∀ a ∈ args, ∃ L', IsBatch a dt lead L') (k : List Arr → Res K) :
    checkArgs o k (args.map Obj.array) = k args := by
  induction args generalizing k with
  | nil => rfl
  | cons a as ih =>
    obtain ⟨L', hb⟩ := ha a (by simp)
    rw [List.map_cons]
    unfold checkArgs
    rw [if_neg (by rw [hb.dtype_eq, ho.dtype_eq]; simp), if_neg, ih fun b hb => ha b (by simp [hb])]
    unfold checkDims
    rw [hb.shape_eq, ho.shape_eq]
    simp

theorem functionOuter_sim {size : ℕ} {dt : DType} (hdt : dt.size? = some size) {lead : List ℕ}
    {m : Mem K} {o : Operand K} {args : List (Operand K)} (ho : o.Good m dt lead size)
    (ha : ∀ a ∈ args, a.Good m dt lead size)
    (hap : ∀ a ∈ args, Apart a.arr o.arr lead a.len o.len) (hno : NoOverlap o.arr lead o.len)
    (p : Prog K Unit) (res : List ℕ → Buf K)
    (hres : ∀ idx, InShape idx lead →
      p.eff (args.map fun a => a.row idx) (o.row idx) = some (res idx)) :
    ∃ m', functionOuter (some p) (.array o.arr) (args.map fun a => .array a.arr) m = .ok m' ∧
      HoldsRows m' o.arr lead o.len (fun idx i => (res idx).get i) ∧
      OnlyChanges m m' o.arr lead o.len := by
  have hs : 0 < size ∧ size < 2 ^ 64 := by
    cases dt <;> simp [DType.size?] at hdt <;> omega
  obtain ⟨m', e, r⟩ := rows_sim hs.1 hs.2 ho ha hap hno p res hres
  refine ⟨m', ?_, r⟩
  have hm : (args.map fun a => Obj.array a.arr) = (args.map Operand.arr).map Obj.array := by simp
  unfold functionOuter
  dsimp only
  rw [if_neg (by rw [ho.isBatch.shape_eq]; simp), hm, checkArgs_ok ho.isBatch _ (by
    intro a hmem
    obtain ⟨c, hc, rfl⟩ := List.mem_map.1 hmem
    exact ⟨_, (ha c hc).isBatch⟩)]
  rw [ho.isBatch.dtype_eq, hdt]
  dsimp only
  rw [e]

end RoughPy.Batch
