import Verif.Lie.Model
import Verif.Tensor.Loops
import Mathlib.NumberTheory.ArithmeticFunction.Moebius
import Mathlib.Tactic.Ring

set_option linter.unusedSectionVars false

/-!
# The Möbius function and the dimension formula computed by `compute_lie_dim`
-/

namespace RoughPy.Lie

open RoughPy.Tensor (loop degreesUp loop_nil loop_cons)
open ArithmeticFunction (moebius isMultiplicative_moebius moebius_apply_prime
  moebius_eq_zero_of_not_squarefree)

theorem moebius_mul_prime {d m : ℕ} (hd : d.Prime) (hm : ¬ d ∣ m) : moebius (d * m) = -moebius m := by
  rw [isMultiplicative_moebius.map_mul_of_coprime ((Nat.Prime.coprime_iff_not_dvd hd).2 hm),
    moebius_apply_prime hd]
  ring

theorem moebius_square {d m : ℕ} (hd : d.Prime) : moebius (d * (d * m)) = 0 := by
  apply moebius_eq_zero_of_not_squarefree
  intro h
  have := h d ⟨m, by ring⟩
  rw [Nat.isUnit_iff] at this
  exact hd.one_lt.ne' this

theorem neg_one_pow_parity (f : ℕ) : ((-1 : ℤ)) ^ f = if f % 2 = 1 then -1 else 1 := by
  rcases Nat.mod_two_eq_zero_or_one f with h | h
  · rw [if_neg (by omega)]
    exact (Nat.even_iff.2 h).neg_one_pow
  · rw [if_pos h]
    exact (Nat.odd_iff.2 h).neg_one_pow

theorem mobiusLoop_eq : ∀ fuel n d f, 0 < fuel → n < fuel + d → 0 < n → n % 2 = 1 → d % 2 = 1 → 3 ≤ d →
    (∀ p, p.Prime → p ∣ n → d ≤ p) → mobiusLoop fuel n d f = some ((-1) ^ f * moebius n) := by
  intro fuel
  induction fuel with
  | zero => intro n d f h; omega
  | succ fuel ih =>
    intro n d f _ hf hn hodd hdodd hd hp
    -- primes dividing an odd number, other than `d`, are at least `d + 2`
    have hnext : ∀ m, m ∣ n → ¬ d ∣ m → ∀ p, p.Prime → p ∣ m → d + 2 ≤ p := by
      intro m hm hdm p hpp hpm
      have h1 := hp p hpp (hpm.trans hm)
      have h2 : p ≠ d := fun h => hdm (h ▸ hpm)
      have h3 : p % 2 = 1 := by
        rcases Nat.mod_two_eq_zero_or_one p with h | h
        · have : 2 ∣ n := (Nat.dvd_of_mod_eq_zero h).trans (hpm.trans hm)
          omega
        · exact h
      omega
    simp only [mobiusLoop]
    by_cases hdd : d * d ≤ n
    · rw [if_pos hdd]
      have hfuel : 0 < fuel := by nlinarith
      by_cases hmod : n % d = 0
      · rw [if_pos hmod]
        obtain ⟨m, rfl⟩ := Nat.dvd_of_mod_eq_zero hmod
        have hm : 0 < m := Nat.pos_of_mul_pos_left hn
        have hdp : d.Prime := by
          have hmf := Nat.minFac_prime (n := d) (by omega)
          have h1 := hp d.minFac hmf ((Nat.minFac_dvd d).trans (Dvd.intro _ rfl))
          have h2 := Nat.minFac_le (n := d) (by omega)
          rw [show d = d.minFac by omega]
          exact hmf
        rw [Nat.mul_div_cancel_left m (by omega)]
        by_cases hmm : m % d = 0
        · rw [if_pos hmm]
          obtain ⟨k, rfl⟩ := Nat.dvd_of_mod_eq_zero hmm
          rw [moebius_square hdp, mul_zero]
        · rw [if_neg hmm]
          have hndvd : ¬ d ∣ m := fun h => hmm (Nat.mod_eq_zero_of_dvd h)
          rw [ih m (d + 2) (f + 1) hfuel (by nlinarith) hm ?_ (by omega) (by omega)
            (hnext m (Dvd.intro_left d rfl) hndvd), moebius_mul_prime hdp hndvd, pow_succ]
          · congr 1; ring
          · rcases Nat.mod_two_eq_zero_or_one m with h | h
            · have : d * m % 2 = 0 := by rw [Nat.mul_mod, h, mul_zero, Nat.zero_mod]
              omega
            · exact h
      · rw [if_neg hmod]
        exact ih n (d + 2) f hfuel (by omega) hn hodd (by omega) (by omega)
          (hnext n dvd_rfl fun h => hmod (Nat.mod_eq_zero_of_dvd h))
    · rw [if_neg hdd]
      by_cases h1 : 1 < n
      · have hpr : n.Prime := by
          by_contra hnp
          have h2 := Nat.minFac_sq_le_self hn hnp
          have h3 := hp n.minFac (Nat.minFac_prime (by omega)) (Nat.minFac_dvd n)
          nlinarith
        rw [if_pos h1, moebius_apply_prime hpr, ← neg_one_pow_parity, pow_succ]
      · have : n = 1 := by omega
        subst this
        rw [if_neg h1, ← neg_one_pow_parity, ArithmeticFunction.moebius_apply_one, mul_one]

/-- The general part of `mobius_func`. -/
def mobiusGeneral (n : ℕ) : Option ℤ :=
  if n % 2 = 0 then
    if n / 2 % 2 = 0 then some 0 else mobiusLoop (n / 2 + 1) (n / 2) 3 1
  else mobiusLoop (n + 1) n 3 0

theorem odd_primes {n : ℕ} (h : n % 2 = 1) : ∀ p, p.Prime → p ∣ n → 3 ≤ p := by
  intro p hp hpn
  have h2 := hp.two_le
  rcases Nat.lt_or_eq_of_le h2 with h3 | h3
  · exact h3
  · subst h3; omega

theorem mobiusGeneral_eq {n : ℕ} (hn : 0 < n) : mobiusGeneral n = some (moebius n) := by
  unfold mobiusGeneral
  by_cases h : n % 2 = 0
  · rw [if_pos h]
    obtain ⟨m, rfl⟩ := Nat.dvd_of_mod_eq_zero h
    rw [Nat.mul_div_cancel_left m (by omega)]
    by_cases h2 : m % 2 = 0
    · rw [if_pos h2]
      obtain ⟨k, rfl⟩ := Nat.dvd_of_mod_eq_zero h2
      rw [moebius_square Nat.prime_two]
    · rw [if_neg h2, mobiusLoop_eq (m + 1) m 3 1 (by omega) (by omega) (by omega) (by omega) (by omega) le_rfl
        (odd_primes (by omega)), moebius_mul_prime Nat.prime_two (by omega)]
      congr 1
      ring
  · rw [if_neg h, mobiusLoop_eq (n + 1) n 3 0 (by omega) (by omega) hn (by omega) (by omega) le_rfl
      (odd_primes (by omega))]
    congr 1
    ring

theorem mobius_table : ∀ n, n < 32 → 0 < n → mobiusTable[n]? = mobiusGeneral n := by decide +kernel

/-- `mobius_func` is the Möbius function. -/
theorem mobiusFunc_eq {n : ℕ} (hn : 0 < n) : mobiusFunc n = some (moebius n) := by
  unfold mobiusFunc
  rw [if_neg (by omega)]
  by_cases h : n ≤ 31
  · rw [if_pos h, mobius_table n (by omega) hn, mobiusGeneral_eq hn]
  · rw [if_neg h]
    exact mobiusGeneral_eq hn

theorem intPowLoop_eq : ∀ fuel result b e, e < fuel → intPowLoop fuel result b e = some (result * b ^ e) := by
  intro fuel
  induction fuel with
  | zero => intro r b e h; omega
  | succ fuel ih =>
    intro r b e he
    simp only [intPowLoop]
    by_cases h0 : 0 < e
    · rw [if_pos h0, ih _ _ _ (by omega)]
      congr 1
      have hb : (if e / 2 ≠ 0 then b * b else b) ^ (e / 2) = b ^ (2 * (e / 2)) := by
        by_cases h : e / 2 = 0
        · rw [h]; simp
        · rw [if_pos h, pow_mul, sq]
      rw [hb]
      by_cases h1 : e % 2 = 1
      · rw [if_pos h1, mul_assoc, ← pow_succ']
        congr 2
        omega
      · rw [if_neg h1]
        congr 2
        omega
    · rw [if_neg h0]
      have : e = 0 := by omega
      subst this
      rw [pow_zero, mul_one]

/-- `int_pow` is the power. -/
theorem intPow_eq (b : ℤ) (e : ℕ) : intPow b e = some (b ^ e) := by
  unfold intPow
  rw [intPowLoop_eq _ _ _ _ (Nat.lt_succ_self e), one_mul]

theorem loop_sum {l : List ℕ} {f : ℕ → ℤ} {body : ℤ → ℕ → Option ℤ} (h : ∀ s, ∀ d ∈ l, body s d = some (s + f d)) :
    ∀ s, loop l s body = some (s + (l.map f).sum) := by
  induction l with
  | nil => intro s; rw [loop_nil, List.map_nil, List.sum_nil, add_zero]
  | cons d l ih =>
    intro s
    rw [loop_cons, h s d List.mem_cons_self]
    simp only [Option.bind_eq_bind, Option.bind_some]
    rw [ih (fun s d hd => h s d (List.mem_cons_of_mem _ hd)), List.map_cons, List.sum_cons, add_assoc]

theorem sum_degreesUp (f : ℕ → ℤ) (n : ℕ) : ((degreesUp 1 n).map f).sum = ∑ d ∈ Finset.Icc 1 n, f d := by
  induction n with
  | zero => rfl
  | succ n ih =>
    have : degreesUp 1 (n + 1) = degreesUp 1 n ++ [n + 1] := by
      unfold degreesUp
      rw [show n + 1 + 1 - 1 = (n + 1 - 1) + 1 by omega, List.range_succ, List.map_append]
      simp only [List.map_cons, List.map_nil]
      congr 2
      omega
    rw [this, List.map_append, List.sum_append, ih, Finset.sum_Icc_succ_top (by omega)]
    simp

/-- `compute_lie_degree_dim` evaluates Witt's formula. -/
theorem lieDegreeDim_eq (w : ℕ) {n : ℕ} (hn : 0 < n) :
    lieDegreeDim w n = some ((∑ x ∈ n.divisorsAntidiagonal, moebius x.1 * (w : ℤ) ^ x.2).tdiv n) := by
  unfold lieDegreeDim
  rw [if_neg (by omega)]
  by_cases h1 : n = 1
  · subst h1
    rw [if_pos rfl]
    simp
  · rw [if_neg h1]
    have hb := loop_sum (l := degreesUp 1 n) (f := fun d => if n % d = 0 then moebius d * (w : ℤ) ^ (n / d) else 0)
      (body := fun sum d => do
        if n % d = 0 then
          let mu ← mobiusFunc d
          if mu ≠ 0 then
            let p ← intPow w (n / d)
            some (sum + mu * p)
          else some sum
        else some sum) (by
        intro s d hd
        rw [RoughPy.Tensor.mem_degreesUp] at hd
        by_cases hm : n % d = 0
        · rw [if_pos hm, if_pos hm, mobiusFunc_eq (by omega)]
          simp only [Option.bind_eq_bind, Option.bind_some]
          by_cases h0 : moebius d = 0
          · rw [if_neg (by simpa using h0), h0, zero_mul, add_zero]
          · rw [if_pos h0, intPow_eq]
            simp
        · rw [if_neg hm, if_neg hm, add_zero]) 0
    rw [hb]
    simp only [Option.bind_eq_bind, Option.bind_some]
    rw [zero_add, sum_degreesUp, Nat.sum_divisorsAntidiagonal (fun d e => moebius d * (w : ℤ) ^ e), ← Finset.sum_filter]
    have hset : (Finset.Icc 1 n).filter (fun d => n % d = 0) = n.divisors := ?_
    · rw [hset]
    ext d
    rw [Finset.mem_filter, Finset.mem_Icc, Nat.mem_divisors]
    constructor
    · rintro ⟨_, h⟩
      exact ⟨Nat.dvd_of_mod_eq_zero h, by omega⟩
    · rintro ⟨h, _⟩
      exact ⟨⟨Nat.pos_of_dvd_of_pos h hn, Nat.le_of_dvd hn h⟩, Nat.mod_eq_zero_of_dvd h⟩

end RoughPy.Lie
