import Verif.Pickle.Lemmas

/-! # Lemmas about pickled elements -/

namespace RoughPy.Pickle

open RoughPy.Lite RoughPy.Intervals RoughPy.Tensor
open RoughPy.Lie (hallTable hallTable_isHall)
open RoughPy.Handles (Outcome)

/-! ### Dense vectors from a list of coefficients -/

theorem denseCoef_eq (l : List ℚ) (i : ℕ) : denseCoef l i = l[i]?.getD 0 := by
  unfold denseCoef
  cases l[i]? <;> rfl

theorem dense_construct {B : Basis} {start : ℕ → ℕ} (hB : B.Lawful start) {xs : List ℚ}
    (h : xs.length ≤ B.maxDim) :
    ∃ r, constructImpl (Dense.ops B : VecOps ℚ (Dense ℚ)) B ⟨none, xs⟩ = some r ∧
      ∀ i, denseCoef r.storage i = denseCoef xs i := by
  have key : ∀ n, n ≤ xs.length → ∃ r : Dense ℚ,
      loop (List.range n) (Dense.ops B : VecOps ℚ (Dense ℚ)).new (fun result i => do
        let index ← (⟨none, xs⟩ : KeyScalars ℚ).index i
        let k ← B.indexToKey index
        let x ← (⟨none, xs⟩ : KeyScalars ℚ).vals[i]?
        (Dense.ops B : VecOps ℚ (Dense ℚ)).modify result k fun _ => x) = some r ∧
      ∀ i, r.entry i = if i < n then xs[i]?.getD 0 else 0 := by
    intro n
    induction n with
    | zero =>
      intro _
      refine ⟨Dense.new, rfl, fun i => ?_⟩
      rw [if_neg (by omega)]
      exact Dense.entry_of_le (by simp [Dense.new])
    | succ n ih =>
      intro hn
      obtain ⟨r, e1, e2⟩ := ih (by omega)
      have hlt : n < start (B.depth + 1) := by rw [← hB.maxDim]; omega
      obtain ⟨d, h1, -, h2, h3⟩ := hB.nextDimension hlt
      have hv : ValidKey start B.depth ⟨d, n - start d⟩ :=
        ⟨h1, show start d + (n - start d) < start (d + 1) by omega⟩
      have hidx : keyIndex start ⟨d, n - start d⟩ = n := by
        change start d + (n - start d) = n; omega
      have hk : B.indexToKey n = some ⟨d, n - start d⟩ := by
        have := hB.indexToKey ⟨d, n - start d⟩ hv.1 hv.2
        change B.indexToKey (keyIndex start ⟨d, n - start d⟩) = _ at this
        rw [hidx] at this
        exact this
      obtain ⟨r', f1, -, f3⟩ := Dense.modify_spec hB r hv fun _ => xs[n]
      refine ⟨r', ?_, fun i => ?_⟩
      · unfold loop at e1 ⊢
        rw [List.range_succ, List.foldlM_append, e1]
        simp only [Option.bind_eq_bind, Option.bind_some, List.foldlM_cons, List.foldlM_nil,
          KeyScalars.index, hk, List.getElem?_eq_getElem (show n < xs.length by omega)]
        change ((r.modify B ⟨d, n - start d⟩ fun _ => xs[n]).bind fun s => some s) = _
        rw [f1]
        rfl
      · rw [f3, hidx, e2]
        by_cases hi : i = n
        · subst hi
          rw [if_pos rfl, if_pos (by omega), List.getElem?_eq_getElem (show i < xs.length by omega)]
          rfl
        · rw [if_neg hi]
          by_cases hin : i < n
          · rw [if_pos hin, if_pos (by omega)]
          · rw [if_neg hin, if_neg (by omega)]
  obtain ⟨r, e1, e2⟩ := key xs.length (Nat.le_refl _)
  refine ⟨r, ?_, fun i => ?_⟩
  · unfold constructImpl
    rw [Nat.min_eq_left h]
    exact e1
  · rw [denseCoef_eq, denseCoef_eq]
    refine (e2 i).trans ?_
    split_ifs with hi
    · rfl
    · rw [List.getElem?_eq_none (by omega)]; rfl

theorem construct_dense {a : AlgType} {x : Elem} (hx : Held a x) {xs : List ℚ}
    (h : xs.length ≤ (basisOf x.ctx a).maxDim) :
    ∃ r, construct x.ctx a ⟨none, xs⟩ .dense = some (.dense r) ∧
      ∀ i, denseCoef r.storage i = denseCoef xs i := by
  obtain ⟨m, hm⟩ : ∃ m, x.ctx.depth = m + 1 := ⟨x.ctx.depth - 1, by have := hx.depth.1; omega⟩
  have hnew := hx.made
  rw [hm] at hnew
  have hc := LiteCtx.ok_new hnew
  have tensorCase : xs.length ≤ x.ctx.tensorBasis.maxDim → ∃ r,
      x.ctx.constructTensor ⟨none, xs⟩ .dense = some (.dense r) ∧
        ∀ i, denseCoef r.storage i = denseCoef xs i := by
    intro h
    obtain ⟨r, e1, e2⟩ := dense_construct (tensorBasis_lawful x.ctx.width x.ctx.depth) h
    refine ⟨r, ?_, e2⟩
    unfold LiteCtx.constructTensor
    change (constructImpl (Dense.ops (tensorBasis x.ctx.width x.ctx.depth) : VecOps ℚ (Dense ℚ))
      (tensorBasis x.ctx.width x.ctx.depth) ⟨none, xs⟩).bind _ = _
    rw [e1]
    rfl
  cases a with
  | freeTensor => exact tensorCase h
  | shuffleTensor => exact tensorCase h
  | lie =>
    have hB := hallBasis_lawful (hallTable_isHall x.ctx.width m) hc.rep
    have hB' : x.ctx.lieBasis.Lawful (lieStart (hallTable x.ctx.width m)) := by
      rw [hc.basis]; exact hB
    obtain ⟨r, e1, e2⟩ := dense_construct hB' h
    refine ⟨r, ?_, e2⟩
    change (constructImpl (Dense.ops x.ctx.lieBasis : VecOps ℚ (Dense ℚ)) x.ctx.lieBasis ⟨none, xs⟩).bind _ = _
    rw [e1]
    rfl

/-! ### Reading what was written -/

variable {F : Formats}

/-- what `load` does after the scalar type and the numbers in front -/
def loadBody (F : Formats) (a : AlgType) (c : LiteCtx) (t : CType) (atype vtype values : ℕ) :
    Reader (Option Elem) :=
  if values = 0 then return none
  else if vtype = 0 then do
    let (t', l) ← loadArray F
    let b ← Reader.lift (algTypeOf atype)
    let r ← Reader.lift (Outcome.ofOption (construct c b ⟨none, if t' = t then l else l.map (F.cast t)⟩ .dense))
    if b = a then return some ⟨c, t, r⟩ else Reader.lift .undefined
  else do
    let b ← Reader.lift (algTypeOf atype)
    let size ← Reader.num 8
    if b = a then do
      loadEntries F c b size
      return some ⟨c, t, .sparse []⟩
    else Reader.lift .undefined

theorem backend_length : backend.length < 256 ^ 8 := by decide

theorem contextOfSpec_held {a : AlgType} {x : Elem} (hx : Held a x) :
    contextOfSpec x.ctx.width x.ctx.depth x.ctype.id backend = .ok (x.ctx, x.ctype) := by
  unfold contextOfSpec
  rw [getType_id]
  dsimp only
  rw [if_neg (by simp), if_neg (by have := hx.width.2; have := hx.depth.2; omega), hx.made]
  rfl

theorem code_lt (a : AlgType) : a.code < 256 ^ 2 := by cases a <;> decide
theorem vecCode_lt (v : VecType) : vecCode v < 256 ^ 2 := by cases v <;> decide

theorem load_header {a b : AlgType} {x : Elem} (hx : Held b x) (v : VecType) (s : Bytes) :
    load F a (header b x.ctx.width x.ctx.depth x.ctype.id backend v true ++ s) =
      loadBody F a x.ctx x.ctype b.code (vecCode v) 1 s := by
  have hw := hx.width.2
  have hd := hx.depth.2
  unfold load header
  simp only [List.append_assoc]
  rw [bind_ok (num_run (show x.ctx.width < 256 ^ 4 by omega) _),
    bind_ok (num_run (show x.ctx.depth < 256 ^ 4 by omega) _),
    bind_ok (vec_run (id_length x.ctype) _), bind_ok (vec_run backend_length _),
    contextOfSpec_held hx, bind_ok (lift_ok _ _), bind_ok (num_run (code_lt b) _),
    bind_ok (num_run (vecCode_lt v) _)]
  exact bind_ok (num_run (w := 1) (n := 1) (by norm_num) s)

theorem load_unset (a b : AlgType) (s : Bytes) :
    load F a (header b 0 0 [] [] .sparse false ++ s) = .refused := by
  unfold load header
  simp only [List.append_assoc]
  rw [bind_ok (num_run (show 0 < 256 ^ 4 by norm_num) _),
    bind_ok (num_run (show 0 < 256 ^ 4 by norm_num) _),
    bind_ok (vec_run (b := []) (by norm_num) _), bind_ok (vec_run (b := []) (by norm_num) _)]
  rfl

theorem algTypeOf_code (a : AlgType) : algTypeOf a.code = .ok a := by cases a <;> rfl

theorem loadArray_run {t : CType} {l : List ℚ} (hl : l.length < 256 ^ 8)
    (hr : (toRaw F t l).length < 256 ^ 8) (s : Bytes) :
    loadArray F (saveArray F t l ++ s) =
      (fromRaw F t l.length (toRaw F t l)).bind fun l' => .ok ((t, l'), s) := by
  unfold loadArray saveArray
  simp only [List.append_assoc]
  rw [bind_ok (take_run (length_info t) _), bind_ok (num_run hl _), bind_ok (vec_run hr _), typeOf_info,
    bind_ok (lift_ok _ _)]
  rw [bind_run]
  unfold Reader.lift
  cases fromRaw F t l.length (toRaw F t l) <;> rfl

/-- a dense element, whatever its scalar type -/
theorem load_dense {a : AlgType} {x : Elem} (b : AlgType) (hx : Held b x) {v : Dense ℚ} (hv : x.val = .dense v)
    (hs : Small F x) (s : Bytes) :
    load F a (header b x.ctx.width x.ctx.depth x.ctype.id backend .dense true ++
      (saveArray F x.ctype v.storage ++ s)) =
      (fromRaw F x.ctype v.storage.length (toRaw F x.ctype v.storage)).bind fun l =>
        (Outcome.ofOption (construct x.ctx b ⟨none, l⟩ .dense)).bind fun r =>
          if b = a then .ok (some ⟨x.ctx, x.ctype, r⟩, s) else .undefined := by
  rw [load_header hx]
  unfold loadBody
  rw [if_neg (by norm_num), if_pos (show vecCode .dense = 0 from rfl), bind_run,
    loadArray_run (by have := (hs.dense v hv).1; omega) (by have := (hs.dense v hv).2; omega)]
  rcases fromRaw F x.ctype v.storage.length (toRaw F x.ctype v.storage) with l | _ | _
  rotate_left
  · rfl
  · rfl
  dsimp only [Outcome.bind]
  rw [algTypeOf_code, bind_ok (lift_ok _ _), bind_run, if_pos rfl]
  rcases construct x.ctx b ⟨none, l⟩ .dense with _ | r
  · rfl
  · change (if b = a then _ else _ : Reader (Option Elem)) s = if b = a then _ else _
    split_ifs <;> rfl

theorem unpickle_run {a : AlgType} (s : Bytes) :
    unpickle F a s = (load F a s).bind fun p => .ok p.1 := rfl

theorem roundTrip_ok {a : AlgType} {x : Option Elem} {p : Bytes} (h : save F a x = .ok p) :
    roundTrip F a x = unpickle F a p := by
  have e : roundTrip F a x = (save F a x).bind (unpickle F a) := rfl
  rw [e, h]
  rfl

theorem save_dense {a : AlgType} {x : Elem} {v : Dense ℚ} (hv : x.val = .dense v) :
    save F a (some x) = .ok (header a x.ctx.width x.ctx.depth x.ctype.id backend .dense true ++
      saveArray F x.ctype v.storage) := by
  unfold save
  dsimp only
  rw [hv]

theorem save_sparse {a : AlgType} {x : Elem} {v : Sparse ℚ} (hv : x.val = .sparse v) :
    save F a (some x) = (Outcome.ofOption (saveEntries F a x v)).bind fun entries =>
      .ok (header a x.ctx.width x.ctx.depth x.ctype.id backend .sparse true ++ le 8 v.length ++ entries) := by
  unfold save
  dsimp only
  rw [hv]
  rfl

theorem unpickle_dense {a : AlgType} {x : Elem} (b : AlgType) (hx : Held b x) {v : Dense ℚ} (hv : x.val = .dense v)
    (hs : Small F x) {l : List ℚ}
    (hl : fromRaw F x.ctype v.storage.length (toRaw F x.ctype v.storage) = .ok l) {r : Stored ℚ}
    (hr : construct x.ctx b ⟨none, l⟩ .dense = some r) {p : Bytes} (hp : save F b (some x) = .ok p) :
    unpickle F a p = if b = a then .ok (some ⟨x.ctx, x.ctype, r⟩) else .undefined := by
  have hload := load_dense (F := F) (a := a) b hx hv hs []
  rw [List.append_nil, hl] at hload
  rw [save_dense hv] at hp
  rw [← Outcome.ok.inj hp, unpickle_run, hload]
  dsimp only [Outcome.bind]
  rw [hr]
  dsimp only [Outcome.ofOption]
  by_cases h : b = a
  · rw [if_pos h, if_pos h]
  · rw [if_neg h, if_neg h]

theorem of_bind_ok {α β : Type} {r : Reader α} {f : α → Reader β} {s : Bytes} {p : β × Bytes}
    (h : (r >>= f) s = .ok p) : ∃ a t, r s = .ok (a, t) ∧ f a t = .ok p := by
  rw [bind_run] at h
  rcases hr : r s with ⟨a, t⟩ | _ | _
  · rw [hr] at h; exact ⟨a, t, rfl, h⟩
  · rw [hr] at h; cases h
  · rw [hr] at h; cases h

/-- loading the entries of a nonempty sparse element never ends well -/
theorem loadEntries_succ (c : LiteCtx) (a : AlgType) (n : ℕ) (s : Bytes) (r : Unit × Bytes) :
    loadEntries F c a (n + 1) s ≠ .ok r := by
  intro h
  unfold loadEntries at h
  dsimp only at h
  obtain ⟨k, s1, -, h⟩ := of_bind_ok h
  obtain ⟨y, s2, -, h⟩ := of_bind_ok h
  obtain ⟨z, s3, -, h⟩ := of_bind_ok h
  cases h

theorem load_sparse {a : AlgType} {x : Elem} (b : AlgType) (hx : Held b x) {n : ℕ} (hn : n < 256 ^ 8) (s : Bytes) :
    load F a (header b x.ctx.width x.ctx.depth x.ctype.id backend .sparse true ++ (le 8 n ++ s)) =
      if b = a then (loadEntries F x.ctx b n s).bind fun p => .ok (some ⟨x.ctx, x.ctype, .sparse []⟩, p.2)
      else .undefined := by
  rw [load_header hx]
  unfold loadBody
  rw [if_neg (by norm_num), if_neg (show vecCode .sparse ≠ 0 by decide), algTypeOf_code,
    bind_ok (lift_ok _ _), bind_ok (num_run hn _)]
  split_ifs
  · rfl
  · rfl

end RoughPy.Pickle
