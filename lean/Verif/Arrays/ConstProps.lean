import Verif.Arrays.ValueProps

/-!
# C118: bounds and constants
-/

namespace RoughPy.Arrays

open RoughPy.Args (Out)
open RoughPy.Scalars (Ty Val FP TRef conv Fits exactFP conv_ty zero_ty)

variable {n : ℕ}

/-- **C118.** Indexing: within the size there is a number, beyond it reading and writing raise, and
nothing changes. -/
theorem C118_bounds {P : FP} {s₀ s : St} (h : Reaches P s₀ s) {i m : ℕ} {t : Ty} (hu : Usable s i)
    (hm : Has s i t m) (k : ℕ) :
    (k < m → step P (fun _ => 0) s (.get i k) = .ok s ∧ ∃ x, Holds s i k x) ∧
      (m ≤ k → step P (fun _ => 0) s (.get i k) = .raised s ∧
        ∀ v, step P (fun _ => 0) s (.set i k v) = .raised s) := by
  obtain ⟨hg, hlen⟩ := h.good
  obtain ⟨a, hi, hty, hal⟩ := hu
  obtain ⟨a', hi2, h2, rfl⟩ := hm
  rw [hi] at hi2; cases hi2
  have hi' := var_iff.1 hi
  have hok := hg.ok i a hi'
  have hget := hok.get hg.books (own_le_owners hi') hty k
  refine ⟨fun hk => ?_, fun hk => ?_⟩
  · rw [if_pos hk] at hget
    have hex : ∃ x, get s.world a k = .ok x := by
      cases hp : a.place s.world with
      | none =>
        rw [hp] at hget
        unfold Arr.elemInfo at hget
        cases hq : a.ty with
        | null => exact absurd hq hty
        | ptr t => rw [hq] at hget; exact ⟨_, hget⟩
        | info t => rw [hq] at hget; exact ⟨_, hget⟩
      | some q =>
        obtain ⟨m, o⟩ := q
        obtain ⟨t, C, v, u, h1, h2, h3, h4, h5, h6, h7, h8, h9⟩ := hok.at hal hp hk
        rw [hp] at hget
        simp only [h2, Out.bind, h9, h8] at hget
        exact ⟨u, hget⟩
    obtain ⟨x, hx⟩ := hex
    exact ⟨by simp only [step, withVar, hi, hx, Out.map, Res.ofOut], x, a, hi, hx⟩
  · rw [if_neg (by omega)] at hget
    refine ⟨by simp only [step, withVar, hi, hget, Out.map, Res.ofOut], fun v => ?_⟩
    have : set P s.world a k v = .err := by
      unfold set Arr.checkAccess
      rw [if_neg hty]
      by_cases h1 : true = true ∧ a.mode = .constB
      · rw [if_pos h1]; rfl
      · rw [if_neg h1]; simp only [Out.bind, if_neg (show ¬ k < a.size by omega)]
    simp only [step, withVar, hi, this, Out.map, Res.ofOut]

/-- **C118.** An array of constants cannot be written to, and there are no arrays over its elements that
could be written to: this raises and nothing changes. -/
theorem C118_const {P : FP} {junk : ℕ → ℕ} {s : St} {i : ℕ} (hu : Usable s i) (hc : IsConst s i) :
    (∀ k v, step P junk s (.set i k v) = .raised s) ∧
      (∀ b e, step P junk s (.slice false i b e) = .raised s) ∧
      step P junk s (.view false i) = .raised s := by
  obtain ⟨a, hi, hty, -⟩ := hu
  obtain ⟨a', hi2, hm⟩ := hc
  rw [hi] at hi2; cases hi2
  refine ⟨fun k v => ?_, fun b e => ?_, ?_⟩
  · have : set P s.world a k v = .err := by
      unfold set Arr.checkAccess
      rw [if_neg hty, if_pos ⟨rfl, hm⟩]
      rfl
    simp only [step, withVar, hi, this, Out.map, Res.ofOut]
  · have : slice false s.world a b e = .err := by
      unfold slice
      by_cases h1 : e ≤ a.size
      · rw [if_pos h1, if_neg (fun h => by rw [hm] at h; exact absurd h.1 (by simp)), if_pos ⟨by simp, hm⟩]
      · rw [if_neg h1]
    simp only [step, withVar, hi, this, Out.map, Res.ofOut]
  · have : view false s.world a = .err := by
      unfold view Arr.mutPointer
      simp [hm, Out.map]
    simp only [step, withVar, hi, this, Out.map, Res.ofOut]

/-! ## Memory of the user that was handed in as constant -/

/-- Every outcome of a call has the property. -/
def Res.All {α : Type} (p : α → Prop) : Res α → Prop
  | .ok a => p a
  | .raised a => p a
  | .ub => True

/-- The value of a call has the property. -/
def okAll {α : Type} (p : α → Prop) : Out α → Prop
  | .ok a => p a
  | _ => True

theorem Res.All.map {α β : Type} {p : α → Prop} {q : β → Prop} {f : α → β} {r : Res α} (h : r.All p)
    (hf : ∀ a, p a → q (f a)) : (r.map f).All q := by
  cases r with
  | ok a => exact hf a h
  | raised a => exact hf a h
  | ub => trivial

theorem okAll.res {α : Type} {p : α → Prop} {r : Out α} {l : α} (h : okAll p r) (hl : p l) :
    (Res.ofOut l r).All p := by
  cases r with
  | ok a => exact h
  | err => exact hl
  | ub => trivial

theorem okAll.map {α β : Type} {p : α → Prop} {q : β → Prop} {f : α → β} {r : Out α} (h : okAll p r)
    (hf : ∀ a, p a → q (f a)) : okAll q (r.map f) := by
  cases r with
  | ok a => exact hf a h
  | err => trivial
  | ub => trivial

theorem okAll.bind {α β : Type} {p : α → Prop} {q : β → Prop} {f : α → Out β} {r : Out α} (h : okAll p r)
    (hf : ∀ a, p a → okAll q (f a)) : okAll q (r.bind f) := by
  cases r with
  | ok a => exact hf a h
  | err => trivial
  | ub => trivial

theorem okAll_true {α : Type} (r : Out α) : okAll (fun _ => True) r := by cases r <;> trivial

/-- The block is as it was, and no buffer has it. -/
structure Kept (b : ℕ) (B : Block) (w : World) : Prop where
  block : w.blocks[b]? = some B
  bufs : ∀ (k : ℕ) (D : Buf), w.bufs[k]? = some D → D.block ≠ b

/-- The array is not one that the block can be changed with. -/
def Away (b : ℕ) (a : Arr) : Prop := a.mode = .mutB → ∀ o, a.word ≠ .data b o

/-- The pointer does not point into the block. -/
def Off (b : ℕ) (p : Ptr) : Prop := ∀ o, p ≠ .elem b o

variable {b : ℕ} {B : Block} {w : World}

theorem Kept.setCell (h : Kept b B w) {m : ℕ} (hm : m ≠ b) (o : ℕ) (v : Val) : Kept b B (w.setCell m o v) := by
  unfold World.setCell
  cases hC : w.blocks[m]? with
  | none => exact h
  | some C => exact ⟨by dsimp only; rw [List.getElem?_set_ne hm]; exact h.block, h.bufs⟩

theorem Kept.write (h : Kept b B w) {t : Ty} {p : Ptr} (hp : Off b p) (v : Val) :
    okAll (Kept b B) (w.write t p v) := by
  unfold World.write
  cases p with
  | elem m o =>
    have hm : m ≠ b := fun e => hp o (by rw [e])
    dsimp only
    cases w.cell m o with
    | none => trivial
    | some c =>
      cases c with
      | none => dsimp only; split_ifs; exact h.setCell hm o v; trivial
      | some u =>
        dsimp only
        cases u.as t with
        | ok _ => exact h.setCell hm o v
        | err => trivial
        | ub => trivial
  | null => trivial
  | obj k => trivial

theorem Kept.alloc (h : Kept b B w) (junk : ℕ → ℕ) (cs : List (Option Val)) :
    Kept b B (w.alloc junk cs).1 := by
  have hlt : b < w.blocks.length := (List.getElem?_eq_some_iff.1 h.block).1
  refine ⟨getElem?_append_some h.block _, fun k D hD => ?_⟩
  rcases append_one hD with h' | ⟨-, h'⟩
  · exact h.bufs k D h'
  · rw [h']; dsimp only; omega

theorem Kept.incRef (h : Kept b B w) (k : ℕ) : okAll (Kept b B) (w.incRef k) := by
  unfold World.incRef
  cases hB : w.bufs[k]? with
  | none => trivial
  | some D =>
    dsimp only
    split_ifs
    · refine ⟨h.block, fun l E hE => ?_⟩
      rcases getElem?_set_cases hE with ⟨-, h'⟩ | ⟨-, h', -⟩
      · exact h.bufs l E h'
      · rw [h']; exact h.bufs k D hB
    · trivial

theorem Kept.decRef (h : Kept b B w) (k : ℕ) : okAll (Kept b B) (w.decRef k) := by
  unfold World.decRef
  cases hB : w.bufs[k]? with
  | none => trivial
  | some D =>
    dsimp only
    split_ifs with h1 h2
    · have h0 : Kept b B ⟨w.blocks, w.bufs.set k ⟨D.block, (D.count + (2 ^ 64 - 1)) % 2 ^ 64,
          decide (D.count ≠ 1)⟩⟩ := by
        refine ⟨h.block, fun l E hE => ?_⟩
        rcases getElem?_set_cases hE with ⟨-, h'⟩ | ⟨-, h', -⟩
        · exact h.bufs l E h'
        · rw [h']; exact h.bufs k D hB
      show Kept b B (World.freeBlock _ D.block)
      unfold World.freeBlock
      dsimp only
      cases hC : w.blocks[D.block]? with
      | none => exact h0
      | some C =>
        exact ⟨by dsimp only; rw [List.getElem?_set_ne (h.bufs k D hB)]; exact h.block, h0.bufs⟩
    · refine ⟨h.block, fun l E hE => ?_⟩
      rcases getElem?_set_cases hE with ⟨-, h'⟩ | ⟨-, h', -⟩
      · exact h.bufs l E h'
      · rw [h']; exact h.bufs k D hB
    · trivial

theorem Kept.dtor (h : Kept b B w) (a : Arr) : okAll (Kept b B) (dtor w a) := by
  unfold RoughPy.Arrays.dtor
  split
  · exact h.decRef _
  · trivial
  · exact h

/-- A pointer that can be written through does not point into the block. -/
theorem Away.ptr {a : Arr} (ha : Away b a) (hw : Kept b B w) (hm : a.mode ≠ .constB) :
    okAll (Off b) (a.ptr w) := by
  unfold Arr.ptr
  cases hmode : a.mode with
  | constB => exact absurd hmode hm
  | mutB =>
    cases hwd : a.word with
    | null => intro o; simp
    | data m o =>
      intro o' e
      cases e
      exact ha hmode o hwd
    | impl k => intro o; simp
  | owned =>
    cases hwd : a.word with
    | null => intro o; simp
    | data m o => trivial
    | impl k =>
      dsimp only
      cases hB : w.bufs[k]? with
      | none => trivial
      | some D =>
        dsimp only
        split_ifs
        · intro o e
          cases e
          exact hw.bufs k D hB rfl
        · trivial

theorem Off.shift {p : Ptr} (h : Off b p) (i : ℕ) : Off b (p.shift i) := by
  intro o e
  cases p with
  | null => simp [Ptr.shift] at e
  | elem m q =>
    simp only [Ptr.shift, Ptr.elem.injEq] at e
    exact h q (by rw [e.1])
  | obj k => simp [Ptr.shift] at e

theorem Kept.copyLoop {P : FP} {dt st : Ty} {p q : Ptr} (hp : Off b p) (m i : ℕ) (h : Kept b B w) :
    (copyLoop P dt st p q m i w).All (Kept b B) := by
  induction m generalizing i w with
  | zero => exact h
  | succ m ih =>
    unfold RoughPy.Arrays.copyLoop
    split
    · split
      · split
        · next hw => exact ih _ (by have := h.write (t := dt) (hp.shift i) ‹Val›; simpa [hw, okAll] using this)
        · trivial
      · exact h
      · trivial
    · trivial

theorem Kept.memcpy {p q : Ptr} (hp : Off b p) (m i : ℕ) (h : Kept b B w) :
    (memcpy p q m i w).All (Kept b B) := by
  induction m generalizing i w with
  | zero => exact h
  | succ m ih =>
    unfold RoughPy.Arrays.memcpy
    split
    · next v hv =>
      split
      · next hw => exact ih _ (by have := h.write (t := v.ty) (hp.shift i) v; simpa [hw, okAll] using this)
      · trivial
    · trivial

theorem Kept.convertBase {P : FP} {dst src : Arr} (hd : Away b dst) (h : Kept b B w) :
    (convertBase P w dst src).All (Kept b B) := by
  unfold RoughPy.Arrays.convertBase
  split_ifs with h1 h2
  · exact h
  · exact h
  · cases hp : dst.mutPointer w with
    | err => exact h
    | ub => trivial
    | ok p =>
      have hoff : Off b p := by
        unfold Arr.mutPointer at hp
        split_ifs at hp with hm
        unfold Arr.pointer at hp
        rw [if_neg h2] at hp
        have := hd.ptr h hm
        rw [hp] at this
        exact this
      dsimp only
      split
      · split
        · split
          · split_ifs
            · exact h
            · exact h.copyLoop hoff _ _
          · trivial
        · exact h
        · trivial
      · trivial

theorem Away.size {a : Arr} (h : Away b a) (m : ℕ) : Away b { a with size := m } := h

/-- What is left after a call. -/
def KeptAway (b : ℕ) (B : Block) (r : World × Arr) : Prop := Kept b B r.1 ∧ Away b r.2

theorem Kept.typed (h : Kept b B w) (junk : ℕ → ℕ) (t : Ty) (m : ℕ) : KeptAway b B (typed junk w t m) := by
  unfold RoughPy.Arrays.typed
  split_ifs
  · exact ⟨h, fun hm => by simp at hm⟩
  · exact ⟨h.alloc _ _, fun hm => by simp at hm⟩

theorem Kept.convertStd {P : FP} {junk : ℕ → ℕ} {t : Ty} {dst src : Arr} (hd : Away b dst) (h : Kept b B w) :
    (convertStd P junk w t dst src).All (KeptAway b B) := by
  unfold RoughPy.Arrays.convertStd
  by_cases h1 : src.size = 0
  · rw [if_pos h1]; exact ⟨h, hd⟩
  rw [if_neg h1]
  by_cases h2 : dst.mode = .constB
  · rw [if_pos h2]; exact ⟨h, hd⟩
  rw [if_neg h2]
  cases hcap : dst.capacity w with
  | err => trivial
  | ub => trivial
  | ok cap =>
    dsimp only
    by_cases h3 : cap < src.size
    · rw [if_pos h3]
      by_cases h4 : dst.mode = .owned
      · rw [if_pos h4]
        cases hw1 : RoughPy.Arrays.dtor w dst with
        | err => trivial
        | ub => trivial
        | ok w1 =>
          have hk : Kept b B w1 := by have := h.dtor dst; simpa [hw1, okAll] using this
          obtain ⟨k1, k2⟩ := hk.typed junk t src.size
          exact (k1.convertBase k2).map fun w' hw' => ⟨hw', k2⟩
      · rw [if_neg h4]; exact ⟨h, hd⟩
    · rw [if_neg h3]
      exact (h.convertBase (hd.size _)).map fun w' hw' => ⟨hw', hd.size _⟩

theorem Kept.convertWith {P : FP} {junk : ℕ → ℕ} {t : Ty} {dst src : Arr} (hd : Away b dst) (h : Kept b B w) :
    (convertWith P junk w t dst src).All (KeptAway b B) := by
  unfold RoughPy.Arrays.convertWith
  split_ifs
  · exact h.convertStd hd
  · exact (h.convertBase hd).map fun w' hw' => ⟨hw', hd⟩

theorem Kept.convertCopy {P : FP} {junk : ℕ → ℕ} {t : Ty} {dst src : Arr} (hd : Away b dst) (h : Kept b B w) :
    (convertCopy P junk w t dst src).All (KeptAway b B) := by
  unfold RoughPy.Arrays.convertCopy
  split_ifs
  · exact ⟨h, hd⟩
  · exact ⟨h, hd⟩
  · split
    · exact h.convertWith hd
    · split
      · split_ifs
        · exact h.convertStd hd
        · next u _ _ =>
          have := h.convertWith (P := P) (junk := junk) (t := u) (src := src) hd
          cases hr : RoughPy.Arrays.convertWith P junk w u dst src with
          | ok r =>
            rw [hr] at this
            exact Kept.convertStd this.2 this.1
          | raised r =>
            rw [hr] at this
            exact this
          | ub => trivial
      · exact h.convertStd hd
      · trivial
    · trivial
  · exact (h.convertBase hd).map fun w' hw' => ⟨hw', hd⟩

theorem Kept.copyAssign {P : FP} {junk : ℕ → ℕ} {a other : Arr} (ha : Away b a) (h : Kept b B w) :
    (copyAssign P junk w a other).All (KeptAway b B) := by
  unfold RoughPy.Arrays.copyAssign
  split_ifs
  · exact ⟨h, ha⟩
  · split
    · next w1 hw1 =>
      have hk : Kept b B w1 := by have := h.dtor a; simpa [hw1, okAll] using this
      have hal := hk.alloc junk (List.replicate other.size none)
      have hlt : b < w1.blocks.length := (List.getElem?_eq_some_iff.1 hk.block).1
      dsimp only
      split
      · split
        · exact hal.convertCopy (fun _ o => by simp)
        · split_ifs
          · split
            · refine Res.All.map (p := Kept b B) (Kept.memcpy ?_ _ _ hal) fun w' hw' => ⟨hw', fun _ o => by simp⟩
              intro o e
              cases e
              omega
            · trivial
          · exact ⟨hk, fun _ o => by simp [Arr.destroyed]⟩
      · trivial
    · trivial

/-- All arrays of the program are such that the block cannot be changed. -/
structure Guarded (b : ℕ) (B : Block) (s : St) : Prop where
  kept : Kept b B s.world
  away : ∀ (i : ℕ) (a : Arr), s.vars[i]? = some (some a) → Away b a

theorem Guarded.push {s : St} (h : Guarded b B s) {r : World × Arr} (hr : KeptAway b B r) :
    Guarded b B (s.push r) := by
  refine ⟨hr.1, fun i a hi => ?_⟩
  simp only [St.push] at hi
  rcases append_one hi with h' | ⟨-, h'⟩
  · exact h.away i a h'
  · cases h'; exact hr.2

theorem Guarded.put {s : St} (h : Guarded b B s) (i : ℕ) {r : World × Arr} (hr : KeptAway b B r) :
    Guarded b B (s.put i r) := by
  refine ⟨hr.1, fun j a hj => ?_⟩
  simp only [St.put] at hj
  rcases getElem?_set_cases hj with ⟨-, h'⟩ | ⟨-, h', -⟩
  · exact h.away j a h'
  · cases h'; exact hr.2

theorem withVar_all {s : St} {i : ℕ} {f : Arr → Res St} {p : St → Prop}
    (h : ∀ a, s.var i = some a → (f a).All p) : (withVar s i f).All p := by
  unfold withVar
  cases hi : s.var i with
  | none => trivial
  | some a => exact h a hi

theorem toWord_away {p : Ptr} {ty : TRef} {sz : ℕ} (h : Off b p) :
    Away b ⟨ty, .mutB, p.toWord, sz⟩ := by
  intro _ o e
  cases p with
  | null => simp [Ptr.toWord] at e
  | elem m q =>
    simp only [Ptr.toWord, Word.data.injEq] at e
    exact h q (by rw [e.1])
  | obj k => simp [Ptr.toWord] at e

theorem Guarded.step {P : FP} {junk : ℕ → ℕ} {s : St} (h : Guarded b B s) {c : Stmt}
    (hc : ∀ r o m, c ≠ .borrow false r b o m) : (step P junk s c).All (Guarded b B) := by
  have hok : ∀ {i : ℕ} {a : Arr}, s.var i = some a → Away b a := fun hi => h.away _ _ (var_iff.1 hi)
  cases c with
  | empty => exact h.push ⟨h.kept, fun hm => by simp [Arr.empty] at hm⟩
  | typed t m => exact h.push (h.kept.typed _ _ _)
  | untyped t m =>
    show (Res.ofOut s ((untyped t).map s.push)).All _
    unfold untyped
    by_cases h1 : t.fundamental = true
    · rw [if_pos h1]; trivial
    · rw [if_neg h1]; exact h
  | borrow c r b' o m =>
    refine h.push ⟨h.kept, fun hm o' e => ?_⟩
    cases c with
    | true => simp [borrowed] at hm
    | false =>
      simp only [borrowed, Word.data.injEq] at e
      exact hc r o m (by rw [e.1])
  | copy i =>
    refine withVar_all fun a hi => okAll.res (okAll.map (p := KeptAway b B) ?_ fun r hr => h.push hr) h
    unfold copyCtor
    split
    · exact (h.kept.incRef _).map fun w' hw' => ⟨hw', hok hi⟩
    · trivial
    · exact ⟨h.kept, hok hi⟩
  | move i =>
    refine withVar_all fun a hi => ?_
    exact (h.put i ⟨h.kept, fun _ o => by simp [moveCtor]⟩).push ⟨h.kept, hok hi⟩
  | assign i j =>
    refine withVar_all fun a hi => withVar_all fun d hd => ?_
    split_ifs
    · exact h
    · exact (h.kept.copyAssign (hok hi)).map fun r hr => h.put i hr
  | moveAssign i j =>
    refine withVar_all fun a hi => withVar_all fun d hd => ?_
    split_ifs
    · exact h
    · refine okAll.res (okAll.map (p := fun r : World × Arr × Arr => Kept b B r.1 ∧ Away b r.2.1 ∧ Away b r.2.2)
        ?_ fun r hr => (h.put i ⟨hr.1, hr.2.1⟩).put j ⟨hr.1, hr.2.2⟩) h
      unfold moveAssign
      refine (h.kept.dtor a).map fun w' hw' => ⟨hw', hok hd, ?_⟩
      dsimp only
      split_ifs
      · exact fun _ o => by simp
      · exact hok hd
  | get i k =>
    exact withVar_all fun a hi => okAll.res (okAll.map (okAll_true _) fun _ _ => h) h
  | set i k v =>
    refine withVar_all fun a hi => okAll.res (okAll.map (p := Kept b B) ?_ fun w' hw' => ⟨hw', h.away⟩) h
    unfold RoughPy.Arrays.set
    unfold Arr.checkAccess
    by_cases h1 : a.ty = .null
    · rw [if_pos h1]; trivial
    rw [if_neg h1]
    by_cases h2 : true = true ∧ a.mode = .constB
    · rw [if_pos h2]; trivial
    rw [if_neg h2]
    have hm : a.mode ≠ .constB := fun e => h2 ⟨rfl, e⟩
    refine (okAll_true _).bind fun _ _ => ?_
    by_cases h3 : k < a.size
    · rw [if_pos h3]
      exact ((hok hi).ptr h.kept hm).bind fun p hp => (okAll_true _).bind fun t _ =>
          (okAll_true _).bind fun u _ => h.kept.write (hp.shift k) u
    · rw [if_neg h3]; trivial
  | slice c i b' e =>
    refine withVar_all fun a hi => okAll.res (okAll.map (p := Away b) ?_ fun r hr => h.push ⟨h.kept, hr⟩) h
    unfold RoughPy.Arrays.slice
    by_cases h1 : e ≤ a.size
    · rw [if_pos h1]
      by_cases h2 : a.mode = .owned ∧ a.word = .null
      · rw [if_pos h2]; trivial
      rw [if_neg h2]
      by_cases h3 : ¬ (c = true) ∧ a.mode = .constB
      · rw [if_pos h3]; trivial
      rw [if_neg h3]
      cases c with
      | true =>
        refine (okAll_true _).bind fun p _ hm => ?_
        simp at hm
      | false =>
        have hm : a.mode ≠ .constB := fun e => h3 ⟨by simp, e⟩
        refine ((hok hi).ptr h.kept hm).bind fun p hp => ?_
        exact toWord_away (hp.shift _)
    · rw [if_neg h1]; trivial
  | view c i =>
    refine withVar_all fun a hi => okAll.res (okAll.map (p := Away b) ?_ fun r hr => h.push ⟨h.kept, hr⟩) h
    unfold RoughPy.Arrays.view
    cases c with
    | true =>
      refine okAll.map (okAll_true _) fun p _ hm => ?_
      simp at hm
    | false =>
      refine okAll.map (p := Off b) ?_ fun p hp => toWord_away hp
      show okAll (Off b) (a.mutPointer s.world)
      unfold Arr.mutPointer Arr.pointer
      split_ifs with h1 h2
      · trivial
      · trivial
      · exact (hok hi).ptr h.kept h1
  | convert t i j =>
    refine withVar_all fun a hi => withVar_all fun d hd => ?_
    exact (h.kept.convertCopy (hok hi)).map fun r hr => h.put i hr
  | drop i =>
    refine withVar_all fun a hi => okAll.res (okAll.map (p := Kept b B) (h.kept.dtor a) fun w' hw' => ?_) h
    refine ⟨hw', fun j x hj => ?_⟩
    rcases getElem?_set_cases hj with ⟨-, h'⟩ | ⟨-, h', -⟩
    · exact h.away j x h'
    · cases h'

theorem Guarded.run {P : FP} {junk : ℕ → ℕ} (prog : List Stmt) {s s' : St} (h : Guarded b B s)
    (hc : ∀ r o m, Stmt.borrow false r b o m ∉ prog) (hr : run P junk s prog = .ok s') :
    Guarded b B s' := by
  induction prog generalizing s with
  | nil => cases hr; exact h
  | cons c cs ih =>
    have hst := h.step (P := P) (junk := junk) (c := c) fun r o m e => hc r o m (by simp [e])
    unfold RoughPy.Arrays.run at hr
    cases hs : RoughPy.Arrays.step P junk s c with
    | ok s1 => rw [hs] at hst hr; exact ih hst (fun r o m hm => hc r o m (by simp [hm])) hr
    | raised s1 => rw [hs] at hst hr; exact ih hst (fun r o m hm => hc r o m (by simp [hm])) hr
    | ub => rw [hs] at hr; cases hr

/-- **C118.** Memory of the user over which the program makes arrays of constants only is never changed or
given back, whatever the program does with the arrays and whatever the counts of new buffers start with, as
long as it does not run into undefined behaviour. -/
theorem C118_memory {P : FP} {junk : ℕ → ℕ} {s₀ s : St} (hi : Initial s₀) {prog : List Stmt} {b : ℕ}
    (hb : b < s₀.world.blocks.length) (hc : ∀ r o m, Stmt.borrow false r b o m ∉ prog)
    (hr : run P junk s₀ prog = .ok s) : s.world.blocks[b]? = s₀.world.blocks[b]? := by
  have hB : s₀.world.blocks[b]? = some s₀.world.blocks[b] := List.getElem?_eq_getElem hb
  have hg : Guarded b s₀.world.blocks[b] s₀ := by
    refine ⟨⟨hB, fun k D hD => ?_⟩, fun i a ha => ?_⟩
    · rw [hi.bufs] at hD; simp at hD
    · rw [hi.vars] at ha; simp at ha
  rw [(hg.run prog hc hr).kept.block, hB]

/-- Constants are read, sliced, copied, converted to another array and assigned: none of it changes
them. -/
example : ∃ s, run exactFP (fun _ => 0) userTwo [.borrow true (.ptr .f64) 0 0 2, .copy 0, .set 1 0 (.int 4 9),
      .slice false 0 0 1, .slice true 1 1 2, .typed .f64 2, .convert .f64 3 0, .set 3 0 (.int 4 9), .move 0,
      .convert .f64 2 3] = .ok s ∧
    Holds s 3 0 (.f64 (.fin 9)) ∧ Holds s 3 1 (.f64 (.fin 4)) ∧ Holds s 2 0 (.f64 (.fin 4)) ∧
    s.world.blocks[0]? = userTwo.world.blocks[0]? := by
  refine ⟨_, rfl, ⟨_, rfl, ?_⟩, ⟨_, rfl, ?_⟩, ⟨_, rfl, ?_⟩, ?_⟩ <;> decide +kernel

/-- **C118, refuted.** An array without a type follows a null pointer instead of raising when it is
indexed. -/
theorem C118_empty_refuted : run exactFP (fun _ => 0) ⟨⟨[], []⟩, []⟩ [.empty, .get 0 0] = .ub := by
  decide +kernel

/-- **C118, refuted.** A slice that ends before it begins has a size near `2 ^ 64`; its elements are
beyond the array. -/
theorem C118_slice_refuted : ∃ s, run exactFP (fun _ => 0) ⟨⟨[], []⟩, []⟩
      [.typed .f64 3, .slice true 0 2 1] = .ok s ∧ Has s 1 .f64 (2 ^ 64 - 1) ∧
    step exactFP (fun _ => 0) s (.get 1 5) = .ub := by
  refine ⟨_, rfl, ⟨_, rfl, rfl, ?_⟩, ?_⟩ <;> decide +kernel

end RoughPy.Arrays
