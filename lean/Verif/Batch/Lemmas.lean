import Verif.Batch.Spec
import Verif.Tensor.Loops
import Mathlib.Data.List.Forall2

namespace RoughPy.Batch

open RoughPy.Tensor

namespace Prog
variable {K α β : Type}

theorem bind_def (p : Prog K α) (f : α → Prog K β) : (p >>= f) = p.bind f := rfl

theorem pure_def (a : α) : (pure a : Prog K α) = done a := rfl

theorem onRow_bind (args : List (Buf K)) (p : Prog K α) (f : α → Prog K β) (out : Buf K) :
    (p.bind f).onRow args out = (p.onRow args out).bind fun r => (f r.2).onRow args r.1 := by
  induction p generalizing out with
  | done a => rfl
  | fail => rfl
  | read j s i k ih =>
    cases j with
    | zero =>
      show (out.read (s + i)).bind _ = ((out.read (s + i)).bind _).bind _
      cases out.read (s + i) with
      | none => rfl
      | some v => exact ih v out
    | succ j =>
      show (args[j]?.bind _) = (args[j]?.bind _).bind _
      cases args[j]? with
      | none => rfl
      | some b =>
        show (b.read (s + i)).bind _ = ((b.read (s + i)).bind _).bind _
        cases b.read (s + i) with
        | none => rfl
        | some v => exact ih v out
  | write s i v k ih =>
    show (out.write (s + i) v).bind _ = ((out.write (s + i) v).bind _).bind _
    cases out.write (s + i) v with
    | none => rfl
    | some o => exact ih o

/-- a program run for its effect only -/
def eff (args : List (Buf K)) (p : Prog K Unit) (out : Buf K) : Option (Buf K) :=
  (p.onRow args out).map Prod.fst

theorem onRow_unit (args : List (Buf K)) (p : Prog K Unit) (out : Buf K) :
    p.onRow args out = (p.eff args out).map fun o => (o, ()) := by
  unfold eff
  cases p.onRow args out <;> rfl

theorem eff_bind (args : List (Buf K)) (p : Prog K α) (f : α → Prog K Unit) (out : Buf K) :
    (p.bind f).eff args out = (p.onRow args out).bind fun r => (f r.2).eff args r.1 := by
  unfold eff
  rw [onRow_bind]
  cases p.onRow args out <;> rfl

theorem eff_bind_unit (args : List (Buf K)) (p : Prog K Unit) (f : Unit → Prog K Unit) (out : Buf K) :
    (p.bind f).eff args out = (p.eff args out).bind fun o => (f ()).eff args o := by
  rw [eff_bind, onRow_unit]
  cases p.eff args out <;> rfl

theorem eff_lift_bind (args : List (Buf K)) (o : Option α) (f : α → Prog K Unit) (out : Buf K) :
    ((lift o).bind f).eff args out = o.bind fun a => (f a).eff args out := by
  cases o <;> rfl

theorem eff_get0_out (args : List (Buf K)) (i : ℕ) (f : K → Prog K Unit) (out : Buf K) :
    ((get0 0 i).bind f).eff args out = (out.read i).bind fun v => (f v).eff args out := by
  rw [eff_bind]
  show ((out.read (0 + i)).bind fun v => some (out, v)).bind _ = _
  rw [Nat.zero_add]
  cases out.read i <;> rfl

theorem eff_get0_arg (args : List (Buf K)) (j i : ℕ) (b : Buf K) (hb : args[j]? = some b)
    (f : K → Prog K Unit) (out : Buf K) :
    ((get0 (j + 1) i).bind f).eff args out = (b.read i).bind fun v => (f v).eff args out := by
  rw [eff_bind]
  show (args[j]?.bind fun b => (b.read (0 + i)).bind fun v => some (out, v)).bind _ = _
  rw [hb, Nat.zero_add]
  show ((b.read i).bind _).bind _ = _
  cases b.read i <;> rfl

theorem eff_get_out (args : List (Buf K)) (fr : Frag) (i : ℕ) (f : K → Prog K Unit) (out : Buf K) :
    ((get 0 fr i).bind f).eff args out =
      (fr.at i).bind fun p => (out.read p).bind fun v => (f v).eff args out := by
  unfold get Frag.at
  split
  · rw [eff_bind]
    show ((out.read (fr.start + i)).bind fun v => some (out, v)).bind _ = (out.read (fr.start + i)).bind _
    cases out.read (fr.start + i) <;> rfl
  · rfl

theorem eff_get_arg (args : List (Buf K)) (j : ℕ) (b : Buf K) (hb : args[j]? = some b) (fr : Frag)
    (i : ℕ) (f : K → Prog K Unit) (out : Buf K) :
    ((get (j + 1) fr i).bind f).eff args out =
      (fr.at i).bind fun p => (b.read p).bind fun v => (f v).eff args out := by
  unfold get Frag.at
  split
  · rw [eff_bind]
    show (args[j]?.bind fun b => (b.read (fr.start + i)).bind fun v => some (out, v)).bind _ =
      (b.read (fr.start + i)).bind _
    rw [hb]
    show ((b.read (fr.start + i)).bind _).bind _ = _
    cases b.read (fr.start + i) <;> rfl
  · rfl

theorem eff_put (args : List (Buf K)) (fr : Frag) (i : ℕ) (v : K) (out : Buf K) :
    (put fr i v).eff args out = (fr.at i).bind fun p => out.write p v := by
  unfold put Frag.at
  split
  · show ((out.write (fr.start + i) v).bind fun o => some (o, ())).map _ = out.write (fr.start + i) v
    cases out.write (fr.start + i) v <;> rfl
  · rfl

theorem eff_put0 (args : List (Buf K)) (i : ℕ) (v : K) (out : Buf K) :
    (put0 i v).eff args out = out.write i v := by
  show ((out.write (0 + i) v).bind fun o => some (o, ())).map _ = _
  rw [Nat.zero_add]
  cases out.write i v <;> rfl

theorem eff_add [Add K] (args : List (Buf K)) (fr : Frag) (i : ℕ) (v : K) (out : Buf K) :
    (add fr i v).eff args out = (fr.at i).bind fun p => out.addAt p v := by
  show ((get 0 fr i).bind fun x => put fr i (x + v)).eff args out = _
  rw [eff_get_out]
  cases h : fr.at i with
  | none => rfl
  | some p =>
    show (out.read p).bind _ = (out.read p).bind _
    refine congrArg _ (funext fun x => ?_)
    rw [eff_put, h]; rfl

theorem eff_add0 [Add K] (args : List (Buf K)) (i : ℕ) (v : K) (out : Buf K) :
    (add0 i v).eff args out = out.addAt i v := by
  show ((get0 0 i).bind fun x => put0 i (x + v)).eff args out = _
  rw [eff_get0_out]
  show _ = (out.read i).bind _
  refine congrArg _ (funext fun x => ?_)
  rw [eff_put0]

theorem eff_each {ι : Type} (args : List (Buf K)) (l : List ι) (body : ι → Prog K Unit) (out : Buf K) :
    (each l body).eff args out = loop l out fun o x => (body x).eff args o := by
  induction l generalizing out with
  | nil => rfl
  | cons x l ih =>
    show ((body x).bind fun _ => each l body).eff args out = _
    rw [eff_bind_unit, loop_cons]
    cases (body x).eff args out with
    | none => rfl
    | some o => exact ih o

theorem eff_done (args : List (Buf K)) (out : Buf K) :
    (done () : Prog K Unit).eff args out = some out := rfl

theorem eff_fail (args : List (Buf K)) (out : Buf K) : (fail : Prog K Unit).eff args out = none := rfl

end Prog

theorem loop_congr {σ ι : Type} (l : List ι) (s : σ) {f g : σ → ι → Option σ}
    (h : ∀ s x, f s x = g s x) : loop l s f = loop l s g := by
  rw [show f = g from funext fun s => funext fun x => h s x]

/-! ### the kernels -/

section ring
variable {K : Type} [CommRing K]

open Prog

theorem mulAcc_out (op : K → K) (fo fl fr : Frag) {args : List (Buf K)} {ra : ℕ} (out : Buf K)
    {rhs : Buf K} (hr : args[ra]? = some rhs) :
    (mulAccProg op fo fl fr 0 (ra + 1)).eff args out =
      mulAccumulate op fo fl fr (fun st i => st.read i) rhs out := by
  unfold mulAccProg mulAccumulate
  rw [eff_each]
  refine loop_congr _ _ fun o i => ?_
  rw [eff_each]
  refine loop_congr _ _ fun o j => ?_
  simp only [Prog.bind_def]
  rw [eff_get_out]
  cases fl.at i with
  | none => rfl
  | some p =>
    show (o.read p).bind _ = (o.read p).bind _
    refine congrArg _ (funext fun a => ?_)
    rw [eff_get_arg (b := rhs) (hb := hr)]
    cases fr.at j with
    | none => rfl
    | some q =>
      show (rhs.read q).bind _ = (rhs.read q).bind _
      refine congrArg _ (funext fun b => ?_)
      rw [eff_add]; rfl

theorem mulAcc_args (op : K → K) (fo fl fr : Frag) (out lhs rhs : Buf K) :
    (mulAccProg op fo fl fr 1 2).eff [lhs, rhs] out =
      mulAccumulate op fo fl fr (fun _ i => lhs.read i) rhs out := by
  unfold mulAccProg mulAccumulate
  rw [eff_each]
  refine loop_congr _ _ fun o i => ?_
  rw [eff_each]
  refine loop_congr _ _ fun o j => ?_
  simp only [Prog.bind_def]
  rw [eff_get_arg (b := lhs) (hb := rfl)]
  cases fl.at i with
  | none => rfl
  | some p =>
    show (lhs.read p).bind _ = (lhs.read p).bind _
    refine congrArg _ (funext fun a => ?_)
    rw [eff_get_arg (b := rhs) (hb := rfl)]
    cases fr.at j with
    | none => rfl
    | some q =>
      show (rhs.read q).bind _ = (rhs.read q).bind _
      refine congrArg _ (funext fun b => ?_)
      rw [eff_add]; rfl

theorem ftFma_eff (op : K → K) (vo vl vr : View) (out lhs rhs : Buf K) :
    (ftFmaProg op vo vl vr).eff [lhs, rhs] out = ftFma op vo vl vr out lhs rhs := by
  unfold ftFmaProg ftFma
  simp only [Prog.bind_def]
  rw [eff_bind_unit, eff_each]
  have e : ∀ (o : Buf K) (od : ℕ), ((lift (vo.atLevel od)).bind fun fo =>
      each (degreesDown (min (vl.maxDeg : ℤ) ((od : ℤ) - vr.minDeg))
        (max (vl.minDeg : ℤ) ((od : ℤ) - vr.maxDeg))) fun ld =>
        (lift (vl.atLevel ld)).bind fun fl => (lift (vr.atLevel (od - ld))).bind fun fr =>
          mulAccProg op fo fl fr 1 2).eff [lhs, rhs] o =
      (do
        let fo ← vo.atLevel od
        loop (degreesDown (min (vl.maxDeg : ℤ) ((od : ℤ) - vr.minDeg))
          (max (vl.minDeg : ℤ) ((od : ℤ) - vr.maxDeg))) o fun out ld => do
          let fl ← vl.atLevel ld
          let fr ← vr.atLevel (od - ld)
          mulAccumulate op fo fl fr (fun _ i => lhs.read i) rhs out) := by
    intro o od
    rw [eff_lift_bind]
    refine congrArg _ (funext fun fo => ?_)
    rw [eff_each]
    refine loop_congr _ _ fun o ld => ?_
    rw [eff_lift_bind]
    refine congrArg _ (funext fun fl => ?_)
    rw [eff_lift_bind]
    refine congrArg _ (funext fun fr => ?_)
    exact mulAcc_args op fo fl fr o lhs rhs
  rw [loop_congr _ _ e]
  refine congrArg _ (funext fun o => ?_)
  split
  · rw [eff_get0_arg (b := lhs) (hb := rfl)]
    refine congrArg _ (funext fun a => ?_)
    rw [eff_get0_arg (b := rhs) (hb := rfl)]
    refine congrArg _ (funext fun b => ?_)
    rw [eff_add0]
  · rfl

theorem scale_eff (op : K → K) (rhsMin : ℕ) (fo : Frag) {args : List (Buf K)} {ra : ℕ} {rhs : Buf K}
    (hr : args[ra]? = some rhs) (lhs : Buf K) :
    (scaleProg op rhsMin fo (ra + 1)).eff args lhs = scaleLevel op rhsMin fo rhs lhs := by
  unfold scaleProg scaleLevel
  split
  · rw [eff_each]
    refine loop_congr _ _ fun o i => ?_
    simp only [Prog.bind_def]
    rw [eff_get_out]
    cases h : fo.at i with
    | none => rfl
    | some p =>
      show (o.read p).bind _ = (o.read p).bind _
      refine congrArg _ (funext fun a => ?_)
      rw [eff_get0_arg (b := rhs) (hb := hr)]
      refine congrArg _ (funext fun b => ?_)
      rw [eff_put, h]; rfl
  · rw [eff_each]
    refine loop_congr _ _ fun o i => ?_
    rw [eff_put]; rfl

theorem ftInplaceMul_eff (op : K → K) (vl vr : View) {args : List (Buf K)} {ra : ℕ} (lhs : Buf K)
    {rhs : Buf K} (hr : args[ra]? = some rhs) :
    (ftInplaceMulProg op vl vr (ra + 1)).eff args lhs = ftInplaceMul op vl vr lhs rhs := by
  unfold ftInplaceMulProg ftInplaceMul
  simp only [Prog.bind_def]
  rw [eff_bind_unit, eff_each]
  have e : ∀ (o : Buf K) (od : ℕ), ((lift (vl.atLevel od)).bind fun fo =>
      (scaleProg op vr.minDeg fo (ra + 1)).bind fun _ =>
      each (degreesDown ((od : ℤ) - max 1 (vr.minDeg : ℤ))
        (max (vl.minDeg : ℤ) ((od : ℤ) - vr.maxDeg))) fun ld =>
        (lift (vl.atLevel ld)).bind fun fl => (lift (vr.atLevel (od - ld))).bind fun fr =>
          mulAccProg op fo fl fr 0 (ra + 1)).eff args o =
      (do
        let fo ← vl.atLevel od
        let lhs ← scaleLevel op vr.minDeg fo rhs o
        loop (degreesDown ((od : ℤ) - max 1 (vr.minDeg : ℤ))
          (max (vl.minDeg : ℤ) ((od : ℤ) - vr.maxDeg))) lhs fun lhs ld => do
          let fl ← vl.atLevel ld
          let fr ← vr.atLevel (od - ld)
          mulAccumulate op fo fl fr (fun st i => st.read i) rhs lhs) := by
    intro o od
    rw [eff_lift_bind]
    refine congrArg _ (funext fun fo => ?_)
    rw [eff_bind_unit, scale_eff _ _ _ hr]
    refine congrArg _ (funext fun o => ?_)
    rw [eff_each]
    refine loop_congr _ _ fun o ld => ?_
    rw [eff_lift_bind]
    refine congrArg _ (funext fun fl => ?_)
    rw [eff_lift_bind]
    refine congrArg _ (funext fun fr => ?_)
    exact mulAcc_out op fo fl fr o hr
  rw [loop_congr _ _ e]
  refine congrArg _ (funext fun o => ?_)
  split
  · rw [eff_get0_out]
    refine congrArg _ (funext fun a => ?_)
    rw [eff_get0_arg (b := rhs) (hb := hr)]
    refine congrArg _ (funext fun b => ?_)
    rw [eff_put0]
  · split
    · rw [eff_put0]
    · rfl

theorem ftAntipode_eff (vo va : View) (out arg : Buf K) :
    (ftAntipodeProg vo va).eff [arg] out = ftAntipode vo va out arg := by
  unfold ftAntipodeProg ftAntipode
  simp only [Prog.bind_def]
  have key : ∀ (fa fo : Frag) (g : ℕ → ℕ) (d : ℕ) (o : Buf K),
      (each (List.range fa.size) fun i => (get 1 fa i).bind fun x =>
        put fo (g i) (defaultSigner d x)).eff [arg] o =
      (loop (List.range fa.size) o fun out i => do
        let x ← arg.read (← fa.at i)
        out.write (← fo.at (g i)) (defaultSigner d x)) := by
    intro fa fo g d o
    rw [eff_each]
    refine loop_congr _ _ fun o i => ?_
    rw [eff_get_arg (b := arg) (hb := rfl)]
    cases fa.at i with
    | none => rfl
    | some p =>
      show (arg.read p).bind _ = (arg.read p).bind _
      refine congrArg _ (funext fun a => ?_)
      rw [eff_put]; rfl
  rw [eff_bind_unit]
  have e1 : (antipodeScalarProg (max va.minDeg vo.minDeg)).eff [arg] out =
      antipodeScalar (max va.minDeg vo.minDeg) out arg := by
    unfold antipodeScalarProg antipodeScalar
    simp only [Prog.bind_def]
    split
    · rw [eff_get0_arg (b := arg) (hb := rfl)]
      refine congrArg _ (funext fun a => ?_)
      rw [eff_put0]
    · rfl
  rw [e1]
  refine congrArg _ (funext fun o => ?_)
  rw [eff_bind_unit]
  have e2 : (antipodeLettersProg vo va (max va.minDeg vo.minDeg)).eff [arg] o =
      antipodeLetters vo va (max va.minDeg vo.minDeg) o arg := by
    unfold antipodeLettersProg antipodeLetters
    simp only [Prog.bind_def]
    split
    · rw [eff_lift_bind]
      refine congrArg _ (funext fun fa => ?_)
      rw [eff_lift_bind]
      refine congrArg _ (funext fun fo => ?_)
      exact key fa fo id 1 o
    · rfl
  rw [e2]
  refine congrArg _ (funext fun o => ?_)
  rw [eff_each]
  refine loop_congr _ _ fun o d => ?_
  rw [eff_lift_bind]
  refine congrArg _ (funext fun fa => ?_)
  rw [eff_lift_bind]
  refine congrArg _ (funext fun fo => ?_)
  exact key fa fo _ d o

theorem ftAdjLmul_eff (vo vp va : View) (out op arg : Buf K) :
    (ftAdjLmulProg vo vp va).eff [op, arg] out = ftAdjLmul vo vp va out op arg := by
  unfold ftAdjLmulProg ftAdjLmul
  simp only [Prog.bind_def]
  rw [eff_each]
  refine loop_congr _ _ fun o ad => ?_
  rw [eff_lift_bind]
  refine congrArg _ (funext fun fa => ?_)
  rw [eff_each]
  refine loop_congr _ _ fun o od => ?_
  rw [eff_lift_bind]
  refine congrArg _ (funext fun fp => ?_)
  rw [eff_lift_bind]
  refine congrArg _ (funext fun fo => ?_)
  rw [eff_each]
  refine loop_congr _ _ fun o k => ?_
  rw [eff_get_arg (b := op) (hb := rfl)]
  cases fp.at k with
  | none => rfl
  | some p =>
    show (op.read p).bind _ = (op.read p).bind _
    refine congrArg _ (funext fun v => ?_)
    rw [eff_each]
    refine loop_congr _ _ fun o i => ?_
    rw [eff_get_arg (b := arg) (hb := rfl)]
    cases fa.at (i + k * fo.size) with
    | none => rfl
    | some q =>
      show (arg.read q).bind _ = (arg.read q).bind _
      refine congrArg _ (funext fun x => ?_)
      rw [eff_add]; rfl

theorem shuffleSum_eff (w : ℕ) (vl vr : View) (letters : List ℕ) (od : ℕ) (masks : List ℕ) (acc : K)
    (f : K → Prog K Unit) (out lhs rhs : Buf K) :
    ((shuffleSumProg w vl vr letters od masks acc).bind f).eff [lhs, rhs] out =
      (loop masks acc fun acc mask => do
          let p ← packMaskedIndex w letters od mask
          let fl ← vl.atLevel p.lhsDeg
          let fr ← vr.atLevel p.rhsDeg
          let x ← lhs.read (← fl.at p.lhsIdx)
          let y ← rhs.read (← fr.at p.rhsIdx)
          some (acc + x * y)).bind fun a => (f a).eff [lhs, rhs] out := by
  induction masks generalizing acc with
  | nil => rfl
  | cons mask masks ih =>
    rw [loop_cons]
    have assoc : ∀ {α β : Type} (p : Prog K α) (g : α → Prog K β) (h : β → Prog K Unit),
        (p.bind g).bind h = p.bind fun a => (g a).bind h := by
      intro α β p g h
      induction p with
      | done a => rfl
      | fail => rfl
      | read j s i k ih => exact congrArg _ (funext fun v => ih v)
      | write s i v k ih => exact congrArg _ ih
    unfold shuffleSumProg
    simp only [Prog.bind_def, assoc]
    rw [eff_lift_bind]
    cases packMaskedIndex w letters od mask with
    | none => rfl
    | some p =>
    simp only [Option.bind_some]
    rw [eff_lift_bind]
    cases h1 : vl.atLevel p.lhsDeg with
    | none => simp [h1]
    | some fl =>
    simp only [Option.bind_some]
    rw [eff_lift_bind]
    cases h2 : vr.atLevel p.rhsDeg with
    | none => simp [h1, h2]
    | some fr =>
    simp only [Option.bind_some]
    rw [eff_get_arg (b := lhs) (hb := rfl)]
    cases h3 : fl.at p.lhsIdx with
    | none => simp [h1, h2, h3]
    | some i =>
    simp only [Option.bind_some]
    cases h4 : lhs.read i with
    | none => simp [h1, h2, h3, h4]
    | some x =>
    simp only [Option.bind_some]
    rw [eff_get_arg (b := rhs) (hb := rfl)]
    cases h5 : fr.at p.rhsIdx with
    | none => simp [h1, h2, h3, h4, h5]
    | some j =>
    simp only [Option.bind_some]
    cases h6 : rhs.read j with
    | none => simp [h1, h2, h3, h4, h5, h6]
    | some y =>
    simp only [Option.bind_some]
    rw [ih]
    simp [h1, h2, h3, h4, h5, h6]

theorem stFma_eff (op : K → K) (vo vl vr : View) (out lhs rhs : Buf K) :
    (stFmaProg op vo vl vr).eff [lhs, rhs] out = stFma op vo vl vr out lhs rhs := by
  unfold stFmaProg stFma
  simp only [Prog.bind_def]
  rw [eff_get0_arg (b := lhs) (hb := rfl)]
  refine congrArg _ (funext fun a => ?_)
  rw [eff_get0_arg (b := rhs) (hb := rfl)]
  refine congrArg _ (funext fun b => ?_)
  rw [eff_bind_unit, eff_add0]
  refine congrArg _ (funext fun o => ?_)
  rw [eff_each]
  refine loop_congr _ _ fun o od => ?_
  rw [eff_lift_bind]
  refine congrArg _ (funext fun fo => ?_)
  rw [eff_each]
  refine loop_congr _ _ fun o i => ?_
  split
  · rw [shuffleSum_eff]
    refine congrArg _ (funext fun acc => ?_)
    rw [eff_add]; rfl
  · rfl

end ring

section field
variable {K : Type} [Field K]

open Prog

theorem ftExp_eff (vo va : View) (out arg : Buf K) :
    (ftExpProg vo va).eff [arg] out = ftExp vo va out arg := by
  unfold ftExpProg ftExp
  simp only [Prog.bind_def]
  rw [eff_bind_unit, eff_put0]
  refine congrArg _ (funext fun o => ?_)
  rw [eff_each]
  refine loop_congr _ _ fun o deg => ?_
  rw [eff_bind_unit, ftInplaceMul_eff (ra := 0) (rhs := arg) (hr := rfl)]
  refine congrArg _ (funext fun o => ?_)
  rw [eff_add0]

theorem ftLog_eff (vo va : View) (out arg : Buf K) :
    (ftLogProg vo va).eff [arg] out = ftLog vo va out arg := by
  unfold ftLogProg ftLog
  simp only [Prog.bind_def]
  rw [eff_each]
  refine loop_congr _ _ fun o deg => ?_
  rw [eff_bind_unit]
  unfold logUnitProg
  simp only [Prog.bind_def]
  split
  · rw [eff_get0_out]
    cases o.read 0 with
    | none => rfl
    | some x =>
      simp only [Option.bind_some]
      rw [eff_put0]
      show _ = (o.write 0 (x - 1 / (deg : K))).bind _
      refine congrArg _ (funext fun o => ?_)
      rw [ftInplaceMul_eff (ra := 0) (rhs := arg) (hr := rfl)]
  · rw [eff_add0]
    refine congrArg _ (funext fun o => ?_)
    rw [ftInplaceMul_eff (ra := 0) (rhs := arg) (hr := rfl)]

theorem ftFmexp_eff (vo vm vx : View) (out mul ex : Buf K) :
    (ftFmexpProg vo vm vx).eff [mul, ex] out = ftFmexp vo vm vx out mul ex := by
  unfold ftFmexpProg ftFmexp
  simp only [Prog.bind_def]
  rw [eff_lift_bind]
  refine congrArg _ (funext fun so => ?_)
  rw [eff_lift_bind]
  refine congrArg _ (funext fun sm => ?_)
  rw [eff_bind_unit]
  have e : (copyProg (min so sm)).eff [mul, ex] out = copyN (min so sm) mul out := by
    unfold copyProg copyN
    simp only [Prog.bind_def]
    rw [eff_each]
    refine loop_congr _ _ fun o i => ?_
    rw [eff_get0_arg (b := mul) (hb := rfl)]
    refine congrArg _ (funext fun a => ?_)
    rw [eff_put0]
  rw [e]
  refine congrArg _ (funext fun o => ?_)
  rw [eff_each]
  refine loop_congr _ _ fun o deg => ?_
  rw [eff_bind_unit, ftInplaceMul_eff (ra := 1) (rhs := ex) (hr := rfl)]
  refine congrArg _ (funext fun o => ?_)
  unfold addVectorProg vectorInplaceAddition
  simp only [Prog.bind_def]
  rw [eff_lift_bind]
  refine congrArg _ (funext fun sl => ?_)
  rw [eff_lift_bind]
  refine congrArg _ (funext fun sr => ?_)
  rw [eff_each]
  refine loop_congr _ _ fun o i => ?_
  rw [eff_get0_arg (b := mul) (hb := rfl)]
  refine congrArg _ (funext fun a => ?_)
  rw [eff_add0]

end field

end RoughPy.Batch
