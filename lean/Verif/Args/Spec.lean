import Verif.Args.Model

/-!
# What array arguments mean

The element of an array at an index, in the terms of the DLPack and buffer protocols, and the rows a
stream is expected to receive. Nothing here refers to how the library copies.
-/

namespace RoughPy.Args

/-- The number an element stands for, converted to the scalar type of the result. -/
def valueOf {R : Type} (C : Conv R) (code bytes raw : ℕ) : R :=
  if code = cInt then C.ofInt (signedOf bytes raw)
  else if code = cUInt then C.ofInt raw
  else if code = cFloat then C.ofFloat bytes raw
  else C.ofBFloat raw

/-- The element types the library claims to convert. -/
def Supported (code bytes : ℕ) : Prop :=
  (code = cInt ∧ (bytes = 1 ∨ bytes = 2 ∨ bytes = 4 ∨ bytes = 8)) ∨
  (code = cUInt ∧ (bytes = 1 ∨ bytes = 2 ∨ bytes = 4 ∨ bytes = 8)) ∨
  (code = cFloat ∧ (bytes = 2 ∨ bytes = 4 ∨ bytes = 8)) ∨
  (code = cBFloat ∧ bytes = 2)

instance (code bytes : ℕ) : Decidable (Supported code bytes) := by
  unfold Supported; infer_instance

/-- The element `j` of a one dimensional DLPack array. -/
def DL.at1 (T : DL) (s : ℤ) (j : ℕ) : Option ℕ :=
  T.mem (T.byteOffset + (T.bits / 8 : ℕ) * (s * j))

/-- The element `(i, j)` of a two dimensional DLPack array. -/
def DL.at2 (T : DL) (s₀ s₁ : ℤ) (i j : ℕ) : Option ℕ :=
  T.mem (T.byteOffset + (T.bits / 8 : ℕ) * (s₀ * i + s₁ * j))

/-- A list of `m` numbers that are the values of the elements `f 0, …, f (m-1)`. -/
def IsRow {R : Type} (C : Conv R) (code bytes m : ℕ) (f : ℕ → Option ℕ) (row : List R) : Prop :=
  row.length = m ∧ ∀ j, j < m → ∃ raw, f j = some raw ∧ row[j]? = some (valueOf C code bytes raw)

/-- The rows of a one dimensional array: the array itself. -/
def DL.IsRows1 {R : Type} (T : DL) (C : Conv R) (m : ℕ) (s : ℤ) (rows : List (List R)) : Prop :=
  ∃ row, rows = [row] ∧ IsRow C T.code (T.bits / 8) m (T.at1 s) row

/-- The rows of a two dimensional array of `n` rows and `m` columns. -/
def DL.IsRows2 {R : Type} (T : DL) (C : Conv R) (n m : ℕ) (s₀ s₁ : ℤ) (rows : List (List R)) :
    Prop :=
  rows.length = n ∧ ∀ i, i < n → ∃ row, rows[i]? = some row ∧
    IsRow C T.code (T.bits / 8) m (T.at2 s₀ s₁ i) row

/-- A tensor as an exporter hands it over: host memory, whole bytes per element, one lane, the data
pointer at the first element. -/
def DL.Plain (T : DL) : Prop :=
  T.onHost = true ∧ T.byteOffset = 0 ∧ T.lanes = 1 ∧ T.bits < 256 ∧ T.bits % 8 = 0 ∧
    Supported T.code (T.bits / 8)

instance (T : DL) : Decidable T.Plain := by
  unfold DL.Plain; infer_instance

/-- Elements of an unsigned type stay below half of the range. -/
def DL.Small (T : DL) : Prop :=
  T.code = cUInt → ∀ o raw, T.mem o = some raw → 2 * raw < 2 ^ (8 * (T.bits / 8))

/-- The element type of the array is the scalar type of the result. -/
def DL.SameType (T : DL) (target : Target) : Prop :=
  T.code = target.info.code ∧ T.bits / 8 = target.info.bytes

instance (T : DL) (target : Target) : Decidable (T.SameType target) := by
  unfold DL.SameType; infer_instance

/-- The element `j` of a one dimensional buffer with the given stride in bytes. -/
def Buf.at1 (B : Buf) (s : ℤ) (j : ℕ) : Option ℕ := B.mem (s * j)

/-- The element `(i, j)` of a two dimensional buffer. -/
def Buf.at2 (B : Buf) (s₀ s₁ : ℤ) (i j : ℕ) : Option ℕ := B.mem (s₀ * i + s₁ * j)

end RoughPy.Args
