import Verif.QuasiNewton.LbfgsLemmas
import Mathlib.Algebra.Order.Ring.Rat

/-!
# Properties C24 and C25: the L-BFGS direction
-/

set_option autoImplicit false
set_option linter.unusedSectionVars false
set_option linter.unusedVariables false

namespace Jaxopt.QuasiNewton

variable {K E V : Type*} [Field K] [LinearOrder K] [IsStrictOrderedRing K] [AddCommGroup E] [Module K E]

namespace Lbfgs

/-- The `n`-th iterate of the solver (parameters and state). -/
def iter (S : Lbfgs K E V) (x0 : E) (n : ℕ) : E × LbfgsState K E V := S.update^[n] (x0, S.initState x0)

/-- The `k`-th pair `(x_{k+1} - x_k, g_{k+1} - g_k)` of a run. -/
def pair (S : Lbfgs K E V) (x0 : E) (k : ℕ) : E × E :=
  ((S.iter x0 (k + 1)).1 - (S.iter x0 k).1, (S.iter x0 (k + 1)).2.grad - (S.iter x0 k).2.grad)

/-- The last `min n m` pairs of a run of `n` updates, oldest first. -/
def lastPairs (S : Lbfgs K E V) (x0 : E) (n : ℕ) : List (E × E) :=
  (List.range' (n - S.historySize) (min n S.historySize)).map (S.pair x0)

theorem iter_succ (S : Lbfgs K E V) (x0 : E) (n : ℕ) : S.iter x0 (n + 1) = S.update (S.iter x0 n) := by
  simp only [iter, Function.iterate_succ_apply']

theorem iterNum_iter (S : Lbfgs K E V) (x0 : E) (n : ℕ) : (S.iter x0 n).2.iterNum = n := by
  induction n with
  | zero => rfl
  | succ n ih => rw [iter_succ]; simp only [update, ih]

/-- The triple stored at step `k`. -/
def triple (S : Lbfgs K E V) (x0 : E) (k : ℕ) : E × E × K :=
  ((S.pair x0 k).1, (S.pair x0 k).2,
    if S.vdot (S.pair x0 k).1 (S.pair x0 k).2 = 0 then 0 else 1 / S.vdot (S.pair x0 k).1 (S.pair x0 k).2)

theorem bufInv_iter (S : Lbfgs K E V) (hm : 0 < S.historySize) (x0 : E) (n : ℕ) :
    BufInv S.historySize n (S.iter x0 n).2.hist (S.triple x0) := by
  induction n with
  | zero => exact bufInv_init _ _
  | succ n ih =>
    have e : (S.iter x0 (n + 1)).2.hist =
        (S.iter x0 n).2.hist.set (n % S.historySize) (S.triple x0 n).1 (S.triple x0 n).2.1 (S.triple x0 n).2.2 := by
      simp only [triple, pair, iter_succ, update, iterNum_iter, if_pos hm.ne']
    rw [e]
    exact bufInv_step hm ih rfl

theorem fold_triples {S : Lbfgs K E V} (hv : IsVdot S.vdot) (x0 : E) (H : E → E) (l : List ℕ) :
    (l.map (S.triple x0)).foldl (stepH S.vdot) H = (l.map (S.pair x0)).foldl (bfgsUpdate S.vdot) H := by
  induction l generalizing H with
  | nil => rfl
  | cons k l ih =>
    simp only [List.map_cons, List.foldl_cons]
    rw [ih]
    congr 1
    exact stepH_eq_bfgsUpdate hv H _ _

/-- **C24, two-loop recursion.** For any content of the buffers, `inv_hessian_product` applies to `v` the matrix obtained
from `gamma * I` by the inverse updates `(I - ρ s yᵀ) H (I - ρ y sᵀ) + ρ s sᵀ` of the slots `start, start+1, …` (cyclically),
in that order. -/
theorem C24_two_loop (vdot : E → E → K) (m : ℕ) (v : E) (h : Hist K E) (gamma : K) (start : ℕ) :
    invHessianProduct vdot m v h gamma start =
      (List.range m).foldl
        (fun H i v =>
          let j := (start + i) % m
          let u := H (v - (h.rho j * vdot (h.s j) v) • h.y j)
          u - (h.rho j * vdot (h.y j) u) • h.s j + (h.rho j * vdot (h.s j) v) • h.s j)
        (fun v => gamma • v) v := by
  rw [invHessianProduct_eq, indices_map, List.foldl_map]
  rfl

/-- **C24, circular buffer.** After `n` updates, reading the buffers from `start` gives empty slots followed by exactly the
last `min n history_size` pairs of the run with their `rho`, oldest first. -/
theorem C24_buffer (S : Lbfgs K E V) (hm : 1 ≤ S.historySize) (x0 : E) (n : ℕ) :
    let st := (S.iter x0 n).2
    (List.range S.historySize).map (fun i =>
        let j := (st.iterNum % S.historySize + i) % S.historySize
        ((st.hist.s j, st.hist.y j), st.hist.rho j)) =
      List.replicate (S.historySize - n) (((0 : E), (0 : E)), (0 : K)) ++
        (S.lastPairs x0 n).map fun p => (p, if S.vdot p.1 p.2 = 0 then 0 else 1 / S.vdot p.1 p.2) := by
  have h := bufInv_read hm (S.bufInv_iter hm x0 n)
  have h2 := congrArg (List.map fun t : E × E × K => ((t.1, t.2.1), t.2.2)) h
  rw [indices_map] at h2
  simp only [List.map_map, List.map_append, List.map_replicate, Function.comp_def, Hist.at] at h2
  simp only [iterNum_iter]
  rw [h2]
  congr 1
  simp only [lastPairs, List.map_map, Function.comp_def, triple]

/-- **C24.** For every line search, every history size `≥ 1` and every iteration number `n`, the search direction of the
`n`-th update is `H (-grad)` where `H` is the BFGS inverse built from `gamma * I` with the last `min n history_size` pairs
of the run in chronological order. -/
theorem C24_direction (S : Lbfgs K E V) (hv : IsVdot S.vdot) (hm : 1 ≤ S.historySize) (x0 : E) (n : ℕ) :
    S.direction (S.iter x0 n).2 =
      bfgsInverse S.vdot (S.iter x0 n).2.gamma (S.lastPairs x0 n) (-(S.iter x0 n).2.grad) := by
  have hm' : S.historySize ≠ 0 := by omega
  simp only [direction, if_pos hm', iterNum_iter]
  rw [invHessianProduct_eq, bufInv_read hm (S.bufInv_iter hm x0 n), List.foldl_append, fold_pad hv, fold_triples hv,
    neg_smul, one_smul]
  rfl

/-- **C24, scaling.** `gamma` is 1 at the first update; afterwards it is `yᵀs / yᵀy` for the latest pair (1 when `y = 0`) if
`use_gamma`, else 1.  Without history the direction is the steepest descent direction. -/
theorem C24_gamma (S : Lbfgs K E V) (hv : IsVdot S.vdot) (x0 : E) (n : ℕ) :
    (S.iter x0 0).2.gamma = 1 ∧
    (1 ≤ S.historySize → S.useGamma = true → (S.pair x0 n).2 ≠ 0 → (S.iter x0 (n + 1)).2.gamma =
        S.vdot (S.pair x0 n).2 (S.pair x0 n).1 / S.vdot (S.pair x0 n).2 (S.pair x0 n).2) ∧
    (S.historySize = 0 ∨ S.useGamma = false ∨ (S.pair x0 n).2 = 0 → (S.iter x0 (n + 1)).2.gamma = 1) ∧
    (S.historySize = 0 → S.direction (S.iter x0 n).2 = -(S.iter x0 n).2.grad) := by
  have key : (S.iter x0 (n + 1)).2.gamma = if S.historySize ≠ 0 ∧ S.useGamma = true then
      (if 0 < S.vdot (S.pair x0 n).2 (S.pair x0 n).2 then
        S.vdot (S.pair x0 n).2 (S.pair x0 n).1 / S.vdot (S.pair x0 n).2 (S.pair x0 n).2 else 1) else 1 := by
    simp only [pair, iter_succ, update, computeGamma, iterNum_iter]
    by_cases h1 : S.historySize = 0
    · simp [h1]
    · simp only [h1, ne_eq, not_false_iff, true_and, if_true, Hist.set, Function.update_self]
  refine ⟨rfl, ?_, ?_, ?_⟩
  · intro h1 h2 h3
    rw [key, if_pos ⟨by omega, h2⟩, if_pos (hv.pos _ h3)]
  · intro h
    rw [key]
    split_ifs with h1 h2
    · rcases h with h | h | h
      · exact absurd h h1.1
      · rw [h] at h1; exact absurd h1.2 (by decide)
      · rw [h, hv.zero_left] at h2; exact absurd h2 (lt_irrefl _)
    · rfl
    · rfl
  · intro h0
    simp [direction, h0]

/-- **C24, warm start.** Restarting from an `OptStep` whose state belongs to its parameters continues the run: the next
update is the one the interrupted run would have made. -/
theorem C24_warm_start (S : Lbfgs K E V) (x : E) (st : LbfgsState K E V) (h1 : st.value = S.f x)
    (h2 : st.grad = S.grad x) : S.update (x, S.initStateWarm (x, st)) = S.update (x, st) := by
  have e : S.initStateWarm (x, st) = { st with error := .pinf, failedLinesearch := false } := by
    simp [initStateWarm, ← h1, ← h2]
  rw [e]
  rfl

/-- **C25, one product.** If every slot was zeroed or has positive curvature and `gamma > 0`, the direction computed for the
gradient `g` is a descent direction; more precisely the operator is symmetric positive definite. -/
theorem C25_descent (vdot : E → E → K) (hv : IsVdot vdot) (m : ℕ) (h : Hist K E) (gamma : K) (start : ℕ)
    (hg : 0 < gamma)
    (hh : ∀ i < m, h.rho i = 0 ∨ (0 < vdot (h.s i) (h.y i) ∧ h.rho i = 1 / vdot (h.s i) (h.y i))) :
    PosDef vdot (fun v => invHessianProduct vdot m v h gamma start) ∧
    ∀ g, g ≠ 0 → vdot g (invHessianProduct vdot m ((-1 : K) • g) h gamma start) < 0 := by
  have hp : PosDef vdot (fun v => invHessianProduct vdot m v h gamma start) := by
    simp only [invHessianProduct_eq]
    apply fold_posDef hv hg
    intro p hp
    obtain ⟨i, hi, rfl⟩ := List.mem_map.mp hp
    obtain ⟨j, hj, rfl⟩ := List.mem_map.mp hi
    have hm : 0 < m := by have := List.mem_range.mp hj; omega
    rcases hh ((start + j) % m) (Nat.mod_lt _ hm) with h1 | ⟨h1, h2⟩
    · exact h1.ge
    · simp only [Hist.at]; rw [h2]; exact (one_div_pos.mpr h1).le
  refine ⟨hp, fun g hne => ?_⟩
  have := hp.pos (-g) (neg_ne_zero.mpr hne)
  rw [hv.neg_left] at this
  rw [neg_smul, one_smul]
  linarith

/-- **C25, secant equation.** If the latest slot (the one just before `start`, cyclically) holds a pair of non-zero curvature
with its `rho`, the operator maps its `y` to its `s`. -/
theorem C25_secant (vdot : E → E → K) (hv : IsVdot vdot) (m : ℕ) (hm : 1 ≤ m) (h : Hist K E) (gamma : K) (start : ℕ)
    (j : ℕ) (hj : j = (start + (m - 1)) % m) (hc : vdot (h.s j) (h.y j) ≠ 0)
    (hr : h.rho j = 1 / vdot (h.s j) (h.y j)) :
    invHessianProduct vdot m (h.y j) h gamma start = h.s j := by
  rw [invHessianProduct_eq, indices_map]
  obtain ⟨k, rfl⟩ : ∃ k, m = k + 1 := ⟨m - 1, by omega⟩
  rw [List.range_succ, List.map_append, List.foldl_append]
  simp only [List.map_cons, List.map_nil, List.foldl_cons, List.foldl_nil]
  rw [Nat.add_sub_cancel] at hj
  rw [← hj]
  have e : h.at j = (h.s j, h.y j, 1 / vdot (h.s j) (h.y j)) := by rw [← hr]; rfl
  rw [e]
  exact stepH_secant hv (fold_map_zero hv _ _) hc

/-- **C25 along a run.** If every step so far had positive curvature, then `gamma > 0`, the direction is a descent direction
whenever the gradient is non-zero, and after at least one update the operator maps the latest `y` to the latest `s`. -/
theorem C25_run (S : Lbfgs K E V) (hv : IsVdot S.vdot) (x0 : E) (n : ℕ)
    (hc : ∀ k < n, 0 < S.vdot (S.pair x0 k).1 (S.pair x0 k).2) :
    0 < (S.iter x0 n).2.gamma ∧
    ((S.iter x0 n).2.grad ≠ 0 → S.vdot (S.iter x0 n).2.grad (S.direction (S.iter x0 n).2) < 0) ∧
    (1 ≤ S.historySize → ∀ k, n = k + 1 →
      bfgsInverse S.vdot (S.iter x0 n).2.gamma (S.lastPairs x0 n) (S.pair x0 k).2 = (S.pair x0 k).1) := by
  have hγ : 0 < (S.iter x0 n).2.gamma := by
    cases n with
    | zero => exact zero_lt_one
    | succ n =>
      obtain ⟨_, g1, g2, _⟩ := C24_gamma S hv x0 n
      by_cases h : S.historySize = 0 ∨ S.useGamma = false ∨ (S.pair x0 n).2 = 0
      · rw [g2 h]; exact zero_lt_one
      · simp only [not_or, Bool.not_eq_false] at h
        rw [g1 (by omega) h.2.1 h.2.2]
        have := hc n (Nat.lt_succ_self n)
        rw [hv.symm] at this
        exact div_pos this (hv.pos _ h.2.2)
  refine ⟨hγ, ?_, ?_⟩
  · intro hne
    by_cases h0 : S.historySize = 0
    · rw [(C24_gamma S hv x0 n).2.2.2 h0, hv.neg_right]
      have := hv.pos _ hne
      linarith
    · have hm : 0 < S.historySize := Nat.pos_of_ne_zero h0
      have hpd : PosDef S.vdot
          (((indices S.historySize (n % S.historySize)).map (S.iter x0 n).2.hist.at).foldl (stepH S.vdot)
            (fun v => (S.iter x0 n).2.gamma • v)) := by
        apply fold_posDef hv hγ
        rw [bufInv_read hm (S.bufInv_iter hm x0 n)]
        intro p hp
        rcases List.mem_append.mp hp with hp | hp
        · rw [(List.mem_replicate.mp hp).2]
        · obtain ⟨k, hk, rfl⟩ := List.mem_map.mp hp
          have hk' : k < n := by have := List.mem_range'_1.mp hk; omega
          have := hc k hk'
          simp only [triple, if_neg this.ne']
          exact (one_div_pos.mpr this).le
      have := hpd.pos (-(S.iter x0 n).2.grad) (neg_ne_zero.mpr hne)
      simp only [direction, if_pos h0, iterNum_iter, neg_smul, one_smul, invHessianProduct_eq]
      rw [hv.neg_left] at this
      linarith
  · rintro hm k rfl
    have hne := (hc k (Nat.lt_succ_self k)).ne'
    have e : S.lastPairs x0 (k + 1) =
        ((List.range' (k + 1 - S.historySize) (min (k + 1) S.historySize - 1)).map (S.pair x0)) ++ [S.pair x0 k] := by
      have e1 : min (k + 1) S.historySize = (min (k + 1) S.historySize - 1) + 1 := by omega
      have e2 : k + 1 - S.historySize + (min (k + 1) S.historySize - 1) = k := by omega
      unfold lastPairs
      conv_lhs => rw [e1]
      rw [List.range'_1_concat, List.map_append, e2]
      rfl
    rw [bfgsInverse, e, List.foldl_append]
    simp only [List.foldl_cons, List.foldl_nil, ← stepH_eq_bfgsUpdate hv, if_neg hne]
    rw [← fold_triples hv]
    exact stepH_secant hv (fold_map_zero hv _ _) hne

/-- **C25 with a Wolfe line search.** If, from a descent direction, every step moves by a positive multiple `t` of the
direction and satisfies the curvature condition `⟨g₊, d⟩ ≥ c₂ ⟨g, d⟩` with `c₂ < 1`, then as long as the gradient has not
vanished every direction is a descent direction, whatever the objective. -/
theorem C25_wolfe_run (S : Lbfgs K E V) (hv : IsVdot S.vdot) (c2 : K) (hc2 : c2 < 1) (x0 : E)
    (hls : ∀ x st, S.vdot st.grad (S.direction st) < 0 →
      ∃ t : K, 0 < t ∧ (S.step x st (S.direction st)).params = x + t • S.direction st ∧
        c2 * S.vdot st.grad (S.direction st) ≤ S.vdot (S.step x st (S.direction st)).grad (S.direction st)) (n : ℕ)
    (hg : ∀ k ≤ n, (S.iter x0 k).2.grad ≠ 0) :
    S.vdot (S.iter x0 n).2.grad (S.direction (S.iter x0 n).2) < 0 ∧
    ∀ k < n, 0 < S.vdot (S.pair x0 k).1 (S.pair x0 k).2 := by
  induction n with
  | zero =>
    have h0 : ∀ k < 0, 0 < S.vdot (S.pair x0 k).1 (S.pair x0 k).2 := fun k hk => absurd hk (Nat.not_lt_zero _)
    exact ⟨(C25_run S hv x0 0 h0).2.1 (hg 0 le_rfl), h0⟩
  | succ n ih =>
    obtain ⟨hd, hk⟩ := ih fun k hk => hg k (by omega)
    have hall : ∀ k < n + 1, 0 < S.vdot (S.pair x0 k).1 (S.pair x0 k).2 := by
      intro k hkn
      rcases Nat.lt_or_eq_of_le (Nat.lt_succ_iff.mp hkn) with h1 | h1
      · exact hk k h1
      · subst h1
        obtain ⟨t, ht, hp, hcv⟩ := hls (S.iter x0 k).1 (S.iter x0 k).2 hd
        simp only [pair]
        rw [iter_succ]
        simp only [update]
        rw [hp, add_sub_cancel_left, hv.smul_left, hv.sub_right]
        apply mul_pos ht
        rw [hv.symm _ (S.step _ _ _).grad, hv.symm _ (S.iter x0 k).2.grad]
        have : 0 < (c2 - 1) * S.vdot (S.iter x0 k).2.grad (S.direction (S.iter x0 k).2) :=
          mul_pos_of_neg_of_neg (by linarith) hd
        linarith
    exact ⟨(C25_run S hv x0 (n + 1) hall).2.1 (hg _ le_rfl), hall⟩

/-! ### Examples -/

/-- Quadratic `x² + 2y²` on pairs of rationals with fixed stepsize 1/8 and two memory slots. -/
def exS : Lbfgs ℚ (ℚ × ℚ) ℚ where
  f := fun x => x.1 * x.1 + 2 * (x.2 * x.2)
  grad := fun x => (2 * x.1, 4 * x.2)
  vdot := fun x y => x.1 * y.1 + x.2 * y.2
  norm := fun x => |x.1| + |x.2|
  historySize := 2
  useGamma := true
  stepsize := .const (1 / 8)
  maxStepsize := 1
  initStep := fun s => s
  stopIfLinesearchFails := false
  tol := 1 / 1000
  maxiter := 10
  unroll := false
  jit := true
  runLs := fun s x v g d => ⟨s, x, v, g, true⟩

theorem exS_vdot : IsVdot exS.vdot := IsVdot.prod IsVdot.mul IsVdot.mul

/-- All curvatures of the example are positive (hypothesis of `C25_run`) although the buffer has wrapped around. -/
example : ∀ k < 4, 0 < exS.vdot (exS.pair (1, 1) k).1 (exS.pair (1, 1) k).2 := by decide +kernel

/-- The buffer after five updates holds pairs 3 and 4, oldest first, read from slot 1. -/
example : exS.lastPairs (1, 1) 5 = [exS.pair (1, 1) 3, exS.pair (1, 1) 4] ∧
    (exS.iter (1, 1) 5).2.hist.s 1 = (exS.pair (1, 1) 3).1 ∧
    (exS.iter (1, 1) 5).2.hist.s 0 = (exS.pair (1, 1) 4).1 := by decide +kernel

/-- The directions are not multiples of the gradient. -/
example : (exS.iter (1, 1) 2).2.grad.1 * (exS.direction (exS.iter (1, 1) 2).2).2 ≠
    (exS.iter (1, 1) 2).2.grad.2 * (exS.direction (exS.iter (1, 1) 2).2).1 := by decide +kernel

/-- The operator read from the buffers is the specification. -/
example : exS.direction (exS.iter (1, 1) 3).2 =
    bfgsInverse exS.vdot (exS.iter (1, 1) 3).2.gamma [exS.pair (1, 1) 1, exS.pair (1, 1) 2]
      (-(exS.iter (1, 1) 3).2.grad) :=
  C24_direction exS exS_vdot (by decide) (1, 1) 3

end Lbfgs

end Jaxopt.QuasiNewton
