import Verif.Model.SamplingFl
import Verif.Lemmas.Rounding
import Verif.Lemmas.VecNorm
import Verif.Lemmas.Sampling
/-! Rounding errors of matrix-vector products and of the fit with a singular value decomposition. -/

namespace Verif.Sampling
open Verif Verif.Np Verif.Util Verif.Spec Verif.Np.NdArray Matrix

/-- What is asked of the computed operations: products of a matrix with a vector are accurate up to `g n` times the sum
of the absolute values of the terms, for `n` terms, quotients and sums up to a relative error `ε`; `h n` and `h 1` cover
underflow.  Quotients by numbers above `cap` are left out. -/
structure FlMat.Ok {𝕜 : Type} [RCLike 𝕜] (F : FlMat 𝕜) (g : ℕ → ℝ) (ε : ℝ) (h : ℕ → ℝ) (cap : ℝ) : Prop where
  hg : ∀ n, 0 ≤ g n
  hε : 0 ≤ ε
  hh : ∀ n, 0 ≤ h n
  mv : ∀ {m n : ℕ} (B : Matrix (Fin m) (Fin n) 𝕜) (x : Fin n → 𝕜) (i : Fin m),
    ‖F.mv B x i - (B *ᵥ x) i‖ ≤ g n * (∑ j, ‖B i j‖ * ‖x j‖) + h n
  div : ∀ (z : 𝕜) (s : ℝ), 0 < s → s ≤ cap → ‖F.div z s - z / (s : 𝕜)‖ ≤ ε * ‖z / (s : 𝕜)‖ + h 1
  add : ∀ a b : 𝕜, ‖F.add a b - (a + b)‖ ≤ ε * ‖a + b‖

/-! ### Dot products -/

section
variable {𝕜 : Type} [RCLike 𝕜]

theorem leaves_sum_le {n : ℕ} (t : SumTree n) (p : Fin n → 𝕜) (b : Fin n → ℝ) (hb : ∀ j, ‖p j‖ ≤ b j) :
    ‖(t.leaves.map p).sum‖ ≤ (t.leaves.map b).sum := by
  induction t with
  | empty => simp [SumTree.leaves]
  | leaf j => simpa [SumTree.leaves] using hb j
  | node l r ihl ihr =>
    simp only [SumTree.leaves, List.map_append, List.sum_append]
    exact (norm_add_le _ _).trans (add_le_add ihl ihr)

theorem SumTree.sum_error {n : ℕ} {add : 𝕜 → 𝕜 → 𝕜} {u c d : ℝ} (hu : 0 ≤ u) (hc : 0 ≤ c) (hd : 0 ≤ d)
    (hadd : ∀ a b, ‖add a b - (a + b)‖ ≤ u * ‖a + b‖) {f p : Fin n → 𝕜} {b : Fin n → ℝ} (hb : ∀ j, ‖p j‖ ≤ b j)
    (hf : ∀ j, ‖f j - p j‖ ≤ c * b j + d) (t : SumTree n) (k : ℕ) (hk : t.depth ≤ k) :
    ‖t.sum add f - (t.leaves.map p).sum‖ ≤
      ((1 + c) * (1 + u) ^ k - 1) * (t.leaves.map b).sum + d * t.leaves.length * (1 + u) ^ k := by
  have hb0 : ∀ j, 0 ≤ b j := fun j => (norm_nonneg _).trans (hb j)
  have h1u : ∀ k : ℕ, 1 ≤ (1 + u) ^ k := fun k => one_le_pow₀ (by linarith)
  have hsum0 : ∀ t : SumTree n, 0 ≤ (t.leaves.map b).sum := fun t => by
    refine List.sum_nonneg fun y hy => ?_
    obtain ⟨j, -, rfl⟩ := List.mem_map.1 hy
    exact hb0 j
  induction t generalizing k with
  | empty => simp [SumTree.leaves, SumTree.sum]
  | leaf j =>
    simp only [SumTree.leaves, SumTree.sum, List.map_cons, List.map_nil, List.sum_cons, List.sum_nil, add_zero,
      List.length_singleton, Nat.cast_one, mul_one]
    refine (hf j).trans (add_le_add (mul_le_mul_of_nonneg_right ?_ (hb0 j)) ?_)
    · have := mul_le_mul_of_nonneg_left (h1u k) (by linarith : (0:ℝ) ≤ 1 + c)
      linarith
    · exact le_mul_of_one_le_right hd (h1u k)
  | node l r ihl ihr =>
    simp only [SumTree.depth] at hk
    obtain ⟨k, rfl⟩ : ∃ k', k = k' + 1 := ⟨k - 1, by omega⟩
    have hl := ihl k (by omega)
    have hr := ihr k (by omega)
    have hs := leaves_sum_le (l.node r) p b hb
    have hP := hsum0 (l.node r)
    simp only [SumTree.leaves, SumTree.sum, List.map_append, List.sum_append, List.length_append, Nat.cast_add]
      at hs hP ⊢
    set L := (l.leaves.map p).sum
    set R := (r.leaves.map p).sum
    set L' := l.sum add f
    set R' := r.sum add f
    set P := (l.leaves.map b).sum
    set Q := (r.leaves.map b).sum
    have e1 : ‖L' + R' - (L + R)‖ ≤ ‖L' - L‖ + ‖R' - R‖ := by
      rw [show L' + R' - (L + R) = (L' - L) + (R' - R) by ring]
      exact norm_add_le _ _
    have e2 : ‖L' + R'‖ ≤ ‖L + R‖ + ‖L' + R' - (L + R)‖ := by
      have := norm_add_le (L + R) (L' + R' - (L + R))
      rwa [add_sub_cancel] at this
    have e3 : ‖add L' R' - (L + R)‖ ≤ ‖add L' R' - (L' + R')‖ + ‖L' + R' - (L + R)‖ := by
      rw [show add L' R' - (L + R) = (add L' R' - (L' + R')) + (L' + R' - (L + R)) by ring]
      exact norm_add_le _ _
    have e4 := hadd L' R'
    set X := ‖L' + R' - (L + R)‖
    have e5 : X ≤ ((1 + c) * (1 + u) ^ k - 1) * (P + Q) + d * (l.leaves.length + r.leaves.length) * (1 + u) ^ k := by
      linarith
    have e6 : ‖add L' R' - (L + R)‖ ≤ u * (P + Q) + (1 + u) * X := by
      have := mul_le_mul_of_nonneg_left (e2.trans (add_le_add_left hs _)) hu
      linarith
    refine e6.trans ?_
    have e7 := mul_le_mul_of_nonneg_left e5 (by linarith : (0:ℝ) ≤ 1 + u)
    rw [pow_succ]
    linarith

/-- A dot product in an order which takes every index once. -/
theorem dot_error {m n : ℕ} {add mul : 𝕜 → 𝕜 → 𝕜} {u c d : ℝ} (hu : 0 ≤ u) (hc : 0 ≤ c) (hd : 0 ≤ d)
    (hadd : ∀ a b, ‖add a b - (a + b)‖ ≤ u * ‖a + b‖) (hmul : ∀ a b, ‖mul a b - a * b‖ ≤ c * (‖a‖ * ‖b‖) + d)
    (B : Matrix (Fin m) (Fin n) 𝕜) (x : Fin n → 𝕜) (i : Fin m) (t : SumTree n)
    (ht : t.leaves.Perm (List.finRange n)) (k : ℕ) (hk : t.depth ≤ k) :
    ‖t.sum add (fun j => mul (B i j) (x j)) - (B *ᵥ x) i‖ ≤
      ((1 + c) * (1 + u) ^ k - 1) * (∑ j, ‖B i j‖ * ‖x j‖) + d * n * (1 + u) ^ k := by
  have h := SumTree.sum_error hu hc hd hadd (f := fun j => mul (B i j) (x j)) (p := fun j => B i j * x j)
    (b := fun j => ‖B i j‖ * ‖x j‖) (fun j => (norm_mul _ _).le) (fun j => hmul _ _) t k hk
  have e1 : (t.leaves.map fun j => B i j * x j).sum = (B *ᵥ x) i := by
    rw [(ht.map _).sum_eq, ← List.ofFn_eq_map, List.sum_ofFn]
    rfl
  have e2 : (t.leaves.map fun j => ‖B i j‖ * ‖x j‖).sum = ∑ j, ‖B i j‖ * ‖x j‖ := by
    rw [(ht.map _).sum_eq, ← List.ofFn_eq_map, List.sum_ofFn]
  have e3 : t.leaves.length = n := by rw [ht.length_eq, List.length_finRange]
  rwa [e1, e2, e3] at h

end

section
variable {A : Kernel.Arith} {u eta : ℝ}

theorem norm_le_re_im (z : ℂ) : ‖z‖ ≤ |z.re| + |z.im| := Complex.norm_le_abs_re_add_abs_im z

theorem addC_error (hA : A.Ok u eta) (a b : ℂ) : ‖addC A a b - (a + b)‖ ≤ u * ‖a + b‖ := by
  rw [← Real.sqrt_sq (mul_nonneg hA.hu (norm_nonneg (a + b))), Complex.norm_eq_sqrt_sq_add_sq]
  refine Real.sqrt_le_sqrt ?_
  rw [mul_pow, Complex.sq_norm, Complex.normSq_apply]
  have h1 := sq_le_sq.2 ((hA.add a.re b.re).trans (le_abs_self _))
  have h2 := sq_le_sq.2 ((hA.add a.im b.im).trans (le_abs_self _))
  rw [mul_pow, sq_abs] at h1 h2
  simp only [addC, Complex.sub_re, Complex.sub_im, Complex.add_re, Complex.add_im]
  nlinarith

theorem cross_le (a b c d : ℝ) : |a * c| + |b * d| ≤ Real.sqrt (a ^ 2 + b ^ 2) * Real.sqrt (c ^ 2 + d ^ 2) := by
  rw [← Real.sqrt_mul (by positivity)]
  refine Real.le_sqrt_of_sq_le ?_
  rw [abs_mul, abs_mul]
  have h1 := sq_nonneg (|a| * |d| - |b| * |c|)
  have := sq_abs a
  have := sq_abs b
  have := sq_abs c
  have := sq_abs d
  calc (|a| * |c| + |b| * |d|) ^ 2 ≤ (|a| ^ 2 + |b| ^ 2) * (|c| ^ 2 + |d| ^ 2) := by nlinarith
    _ = _ := by simp only [sq_abs]

theorem mulC_error (hA : A.Ok u eta) (hu : u ≤ 1 / 10) (a b : ℂ) :
    ‖mulC A a b - a * b‖ ≤ 5 * u * (‖a‖ * ‖b‖) + 5 * eta := by
  have key : ∀ (op : ℝ → ℝ → ℝ) (sg : ℝ), |sg| = 1 → (∀ p q, |op p q - (p + sg * q)| ≤ u * |p + sg * q|) →
      ∀ p q r s : ℝ, |op (A.mul p q) (A.mul r s) - (p * q + sg * (r * s))| ≤
        21 / 10 * u * (|p * q| + |r * s|) + 22 / 10 * eta := by
    intro op sg hsg hop p q r s
    have m1 := hA.mul p q
    have m2 := hA.mul r s
    have m3 := hop (A.mul p q) (A.mul r s)
    set P := A.mul p q
    set R := A.mul r s
    have hX : |P + sg * R - (p * q + sg * (r * s))| ≤ u * (|p * q| + |r * s|) + 2 * eta := by
      rw [show P + sg * R - (p * q + sg * (r * s)) = (P - p * q) + sg * (R - r * s) by ring]
      refine (abs_add_le _ _).trans ?_
      rw [abs_mul sg, hsg, one_mul]
      linarith
    have hY : |p * q + sg * (r * s)| ≤ |p * q| + |r * s| := by
      refine (abs_add_le _ _).trans ?_
      rw [abs_mul sg, hsg, one_mul]
    have hZ : |P + sg * R| ≤ |p * q + sg * (r * s)| + |P + sg * R - (p * q + sg * (r * s))| := by
      have := abs_add_le (p * q + sg * (r * s)) (P + sg * R - (p * q + sg * (r * s)))
      rwa [add_sub_cancel] at this
    have hW : |op P R - (p * q + sg * (r * s))| ≤ |op P R - (P + sg * R)| + |P + sg * R - (p * q + sg * (r * s))| := by
      have := abs_add_le (op P R - (P + sg * R)) (P + sg * R - (p * q + sg * (r * s)))
      rwa [sub_add_sub_cancel] at this
    set S := |p * q| + |r * s|
    have hS : 0 ≤ S := by positivity
    set X := |P + sg * R - (p * q + sg * (r * s))|
    have h1 : u * |P + sg * R| ≤ u * (S + X) := mul_le_mul_of_nonneg_left (by linarith) hA.hu
    have h2 : u * X ≤ 1 / 10 * X := mul_le_mul_of_nonneg_right hu (abs_nonneg _)
    have h3 : 0 ≤ u * S := mul_nonneg hA.hu hS
    linarith
  have k1 := key A.sub (-1) (by norm_num) (fun p q => by
    have := hA.sub p q
    simpa [sub_eq_add_neg] using this) a.re b.re a.im b.im
  have k2 := key A.add 1 (by norm_num) (fun p q => by
    have := hA.add p q
    simpa using this) a.re b.im a.im b.re
  refine (norm_le_re_im _).trans ?_
  have n1 : ‖a‖ = Real.sqrt (a.re ^ 2 + a.im ^ 2) := Complex.norm_eq_sqrt_sq_add_sq a
  have n2 : ‖b‖ = Real.sqrt (b.re ^ 2 + b.im ^ 2) := Complex.norm_eq_sqrt_sq_add_sq b
  have c1 := cross_le a.re a.im b.re b.im
  have c2 := cross_le a.re a.im b.im b.re
  rw [add_comm (b.im ^ 2)] at c2
  rw [← n1, ← n2] at c1 c2
  have e1 : (mulC A a b - a * b).re = A.sub (A.mul a.re b.re) (A.mul a.im b.im) - (a.re * b.re + -1 * (a.im * b.im)) := by
    simp only [mulC, Complex.sub_re, Complex.mul_re]
    ring
  have e2 : (mulC A a b - a * b).im = A.add (A.mul a.re b.im) (A.mul a.im b.re) - (a.re * b.im + 1 * (a.im * b.re)) := by
    simp only [mulC, Complex.sub_im, Complex.mul_im]
    ring
  rw [e1, e2]
  have hu0 := hA.hu
  have he0 := hA.heta
  have d1 := mul_le_mul_of_nonneg_left c1 (by linarith : 0 ≤ 21 / 10 * u)
  have d2 := mul_le_mul_of_nonneg_left c2 (by linarith : 0 ≤ 21 / 10 * u)
  have d3 : 0 ≤ u * (‖a‖ * ‖b‖) := by positivity
  linarith

theorem divC_error (hA : A.Ok u eta) (hu : u ≤ 1 / 10) (z : ℂ) (s : ℝ) (hs : 0 < s) (hcap : eta * s ≤ u) :
    ‖divC A z s - z / (s : ℂ)‖ ≤ 5 * u * ‖z / (s : ℂ)‖ + 2 * eta := by
  have hr : |A.div 1 s - 1 / s| ≤ 2 * u * (1 / s) := by
    have h1 := hA.div 1 s hs.ne'
    rw [abs_of_pos (by positivity : (0:ℝ) < 1 / s)] at h1
    have h2 : eta ≤ u * (1 / s) := by
      rw [mul_one_div, le_div_iff₀ hs]
      exact hcap
    linarith
  have hr' : |A.div 1 s| ≤ 6 / 5 * (1 / s) := by
    have h1 := abs_add_le (1 / s) (A.div 1 s - 1 / s)
    rw [add_sub_cancel, abs_of_pos (by positivity : (0:ℝ) < 1 / s)] at h1
    have h2 : u * (1 / s) ≤ 1 / 10 * (1 / s) := mul_le_mul_of_nonneg_right hu (by positivity)
    linarith
  have key : ∀ a : ℝ, |A.mul a (A.div 1 s) - a / s| ≤ 32 / 10 * u * |a / s| + eta := by
    intro a
    have h1 := hA.mul a (A.div 1 s)
    have h2 : |a * A.div 1 s - a / s| ≤ 2 * u * |a / s| := by
      rw [show a * A.div 1 s - a / s = a * (A.div 1 s - 1 / s) by ring, abs_mul, abs_div, abs_of_pos hs]
      have := mul_le_mul_of_nonneg_left hr (abs_nonneg a)
      calc _ ≤ _ := this
        _ = _ := by ring
    have h3 : |a * A.div 1 s| ≤ 6 / 5 * |a / s| := by
      rw [abs_mul, abs_div, abs_of_pos hs]
      have := mul_le_mul_of_nonneg_left hr' (abs_nonneg a)
      calc _ ≤ _ := this
        _ = _ := by ring
    have h4 := mul_le_mul_of_nonneg_left h3 hA.hu
    have h5 := abs_add_le (A.mul a (A.div 1 s) - a * A.div 1 s) (a * A.div 1 s - a / s)
    rw [sub_add_sub_cancel] at h5
    linarith
  have e1 : (divC A z s - z / (s : ℂ)).re = A.mul z.re (A.div 1 s) - z.re / s := by
    simp [divC, Complex.div_ofReal_re]
  have e2 : (divC A z s - z / (s : ℂ)).im = A.mul z.im (A.div 1 s) - z.im / s := by
    simp [divC, Complex.div_ofReal_im]
  refine (norm_le_re_im _).trans ?_
  rw [e1, e2]
  have k1 := key z.re
  have k2 := key z.im
  have h6 : |z.re / s| + |z.im / s| ≤ 3 / 2 * ‖z / (s : ℂ)‖ := by
    have h := cross_le (z.re / s) (z.im / s) 1 1
    rw [mul_one, mul_one, ← Complex.div_ofReal_re, ← Complex.div_ofReal_im, ← Complex.norm_eq_sqrt_sq_add_sq] at h
    rw [← Complex.div_ofReal_re, ← Complex.div_ofReal_im, mul_comm]
    refine h.trans (mul_le_mul_of_nonneg_left ?_ (norm_nonneg _))
    rw [Real.sqrt_le_left (by norm_num)]
    norm_num
  have h7 := mul_le_mul_of_nonneg_left h6 (by have := hA.hu; linarith : 0 ≤ 32 / 10 * u)
  have h8 : 0 ≤ u * ‖z / (s : ℂ)‖ := mul_nonneg hA.hu (norm_nonneg _)
  linarith

/-- Orders of summation which take every index once, with at most `D n` additions in a row for `n` terms. -/
def GoodOrder (order : ∀ (m n : ℕ), Fin m → SumTree n) (D : ℕ → ℕ) : Prop :=
  ∀ m n i, (order m n i).leaves.Perm (List.finRange n) ∧ (order m n i).depth ≤ D n

/-- Relative error of a dot product of `n` terms. -/
noncomputable def dotG (u : ℝ) (D : ℕ → ℕ) (n : ℕ) : ℝ := (1 + 5 * u) * (1 + u) ^ D n - 1

/-- Absolute error of a dot product of `n` terms by underflow. -/
noncomputable def dotH (u eta : ℝ) (D : ℕ → ℕ) (n : ℕ) : ℝ := 5 * eta * (n + 1) * (1 + u) ^ D n

theorem dotG_nonneg (hu : 0 ≤ u) (D : ℕ → ℕ) (n : ℕ) : 0 ≤ dotG u D n := by
  unfold dotG
  have h1 : (1:ℝ) ≤ (1 + u) ^ D n := one_le_pow₀ (by linarith)
  nlinarith

theorem dotH_ge (hu : 0 ≤ u) (he : 0 ≤ eta) (D : ℕ → ℕ) (n : ℕ) : 5 * eta * n * (1 + u) ^ D n ≤ dotH u eta D n ∧
    5 * eta ≤ dotH u eta D n := by
  unfold dotH
  have h1 : (1:ℝ) ≤ (1 + u) ^ D n := one_le_pow₀ (by linarith)
  have hn : (0:ℝ) ≤ n := Nat.cast_nonneg n
  refine ⟨mul_le_mul_of_nonneg_right (mul_le_mul_of_nonneg_left (by linarith) (by linarith)) (by linarith), ?_⟩
  calc 5 * eta = 5 * eta * 1 * 1 := by ring
    _ ≤ 5 * eta * (n + 1) * (1 + u) ^ D n :=
      mul_le_mul (mul_le_mul_of_nonneg_left (by linarith) (by linarith)) h1 (by norm_num) (by positivity)

theorem complexDot_ok (hA : A.Ok u eta) (hu : u ≤ 1 / 10) {order : ∀ (m n : ℕ), Fin m → SumTree n} {D : ℕ → ℕ}
    (hord : GoodOrder order D) {cap : ℝ} (hcap : eta * cap ≤ u) :
    (FlMat.complexDot A order).Ok (dotG u D) (5 * u) (dotH u eta D) cap where
  hg := dotG_nonneg hA.hu D
  hε := by have := hA.hu; linarith
  hh := fun n => by
    have := (dotH_ge hA.hu hA.heta D n).2
    have := hA.heta
    linarith
  mv := fun B x i => by
    have h := dot_error hA.hu (c := 5 * u) (d := 5 * eta) (by have := hA.hu; linarith) (by have := hA.heta; linarith)
      (addC_error hA) (mulC_error hA hu) B x i _ (hord _ _ i).1 _ (hord _ _ i).2
    refine h.trans (add_le_add_right ?_ _)
    exact (dotH_ge hA.hu hA.heta D _).1
  div := fun z s hs hsc => by
    have h := divC_error hA hu z s hs ((mul_le_mul_of_nonneg_left hsc hA.heta).trans hcap)
    have := (dotH_ge hA.hu hA.heta D 1).2
    have := hA.heta
    refine h.trans ?_
    simp only [RCLike.ofReal_eq_complex_ofReal] at *
    linarith
  add := fun a b => (addC_error hA a b).trans (mul_le_mul_of_nonneg_right (by have := hA.hu; linarith) (norm_nonneg _))

theorem realDot_ok (hA : A.Ok u eta) {order : ∀ (m n : ℕ), Fin m → SumTree n} {D : ℕ → ℕ}
    (hord : GoodOrder order D) (cap : ℝ) :
    (FlMat.realDot A order).Ok (dotG u D) (5 * u) (dotH u eta D) cap where
  hg := dotG_nonneg hA.hu D
  hε := by have := hA.hu; linarith
  hh := fun n => by
    have := (dotH_ge hA.hu hA.heta D n).2
    have := hA.heta
    linarith
  mv := fun B x i => by
    have h := dot_error hA.hu (c := 5 * u) (d := 5 * eta) (by have := hA.hu; linarith) (by have := hA.heta; linarith)
      (add := A.add) (mul := A.mul) (fun a b => by simpa using hA.add a b) (fun a b => by
        have h1 := hA.mul a b
        have h2 : 0 ≤ u * |a * b| := mul_nonneg hA.hu (abs_nonneg _)
        have := hA.heta
        simp only [Real.norm_eq_abs, ← abs_mul]
        linarith) B x i _ (hord _ _ i).1 _ (hord _ _ i).2
    refine h.trans (add_le_add_right ?_ _)
    exact (dotH_ge hA.hu hA.heta D _).1
  div := fun z s hs _ => by
    have h := hA.div z s hs.ne'
    have h1 := (dotH_ge hA.hu hA.heta D 1).2
    have h2 := hA.heta
    have h3 : 0 ≤ u * |z / s| := mul_nonneg hA.hu (abs_nonneg _)
    change |A.div z s - z / s| ≤ 5 * u * |z / s| + _
    linarith
  add := fun a b => by
    have h := hA.add a b
    have h3 : 0 ≤ u * |a + b| := mul_nonneg hA.hu (abs_nonneg _)
    change |A.add a b - (a + b)| ≤ 5 * u * |a + b|
    linarith

end

/-! ### Products and quotients in norm -/

section
variable {𝕜 : Type} [RCLike 𝕜] {F : FlMat 𝕜} {g h : ℕ → ℝ} {ε cap : ℝ}

/-- Error of a product in norm, from a bound on the columns; entries of the vector which only meet zeros do not
count. -/
theorem FlMat.Ok.mv_norm_cols (hF : F.Ok g ε h cap) {m n : ℕ} {B : Matrix (Fin m) (Fin n) 𝕜} {c : ℝ} (hc : 0 ≤ c)
    (hB : ∀ j, norm2 (B *ᵥ Pi.single j 1) ≤ c) (x : Fin n → 𝕜) {𝕜' : Type} [RCLike 𝕜'] (x' : Fin n → 𝕜')
    (hx : ∀ i j, ‖B i j‖ * ‖x j‖ = ‖B i j‖ * ‖x' j‖) :
    norm2 (F.mv B x - B *ᵥ x) ≤ Real.sqrt n * g n * c * norm2 x' + Real.sqrt m * h n := by
  have h1 := norm2_le_of_entries (x := F.mv B x - B *ᵥ x) (y := (fun i => ∑ j, ‖B i j‖ * ‖x' j‖ : Fin m → ℝ))
    (H := Real.sqrt m * h n) (hF.hg n) (hF.hh n) (by rw [Fintype.card_fin]) (fun i => by
      have := hF.mv B x i
      rw [Real.norm_eq_abs, abs_of_nonneg (Finset.sum_nonneg fun j _ => by positivity)]
      simp only [hx] at this
      exact this)
  have h2 := mul_le_mul_of_nonneg_left (norm2_abs_mulVec_le_of_cols hc hB x') (hF.hg n)
  calc _ ≤ _ := h1
    _ ≤ g n * (Real.sqrt n * c * norm2 x') + Real.sqrt m * h n := by linarith
    _ = _ := by ring

theorem FlMat.Ok.mv_norm (hF : F.Ok g ε h cap) {m n : ℕ} {B : Matrix (Fin m) (Fin n) 𝕜} {c : ℝ} (hc : 0 ≤ c)
    (hB : OpLe B c) (x : Fin n → 𝕜) :
    norm2 (F.mv B x - B *ᵥ x) ≤ Real.sqrt n * g n * c * norm2 x + Real.sqrt m * h n :=
  hF.mv_norm_cols hc hB.cols x x fun _ _ => rfl

theorem FlMat.Ok.add_norm (hF : F.Ok g ε h cap) {n : ℕ} (a b : Fin n → 𝕜) :
    norm2 ((fun i => F.add (a i) (b i)) - (a + b)) ≤ ε * norm2 (a + b) := by
  have := norm2_le_of_entries (x := (fun i => F.add (a i) (b i)) - (a + b)) (y := a + b) (h := 0) (H := 0) hF.hε le_rfl
    (by simp) fun i => by simpa using hF.add (a i) (b i)
  simpa using this

theorem FlMat.Ok.div_norm (hF : F.Ok g ε h cap) {n : ℕ} {s : Fin n → ℝ} (hs : ∀ i, 0 < s i) (hcap : ∀ i, s i ≤ cap)
    (r : Fin n → 𝕜) :
    norm2 ((fun i => F.div (r i) (s i)) - fun i => r i / (s i : 𝕜)) ≤
      ε * norm2 (fun i => r i / (s i : 𝕜)) + Real.sqrt n * h 1 :=
  norm2_le_of_entries hF.hε (hF.hh 1) (by rw [Fintype.card_fin]) fun i => hF.div (r i) (s i) (hs i) (hcap i)

end

/-! ### The fit -/

section
variable {𝕜 : Type} [RCLike 𝕜] {m n : ℕ} {A U : Matrix (Fin m) (Fin n) 𝕜} {V : Matrix (Fin n) (Fin n) 𝕜}
    {s : Fin n → ℝ} {δ E smin smax : ℝ}

/-- `A` is `U diag(s) Vᴴ` up to `E`, where the columns of `U` and the rows of `V` are orthonormal up to `δ`. -/
structure NearSvd (A U : Matrix (Fin m) (Fin n) 𝕜) (s : Fin n → ℝ) (V : Matrix (Fin n) (Fin n) 𝕜)
    (δ E smin smax : ℝ) : Prop where
  hδ : 0 ≤ δ
  hδ' : δ ≤ 1 / 10
  hE : 0 ≤ E
  hE' : E ≤ smax / 10
  hmin : 0 < smin
  lo : ∀ i, smin ≤ s i
  hi : ∀ i, s i ≤ smax
  le : smin ≤ smax
  u_orth : OpLe (Uᴴ * U - 1) δ
  v_orth : OpLe (V * Vᴴ - 1) δ
  eq : OpLe (A - U * Matrix.diagonal (fun i => (s i : 𝕜)) * Vᴴ) E

namespace NearSvd

theorem opU (H : NearSvd A U s V δ E smin smax) : OpLe U (21 / 20) :=
  (H.u_orth.of_gram H.hδ).mono (by have := H.hδ'; linarith)

theorem opUH (H : NearSvd A U s V δ E smin smax) : OpLe Uᴴ (21 / 20) := H.opU.star (by norm_num)

theorem opVH (H : NearSvd A U s V δ E smin smax) : OpLe Vᴴ (21 / 20) := by
  have h : OpLe ((Vᴴ)ᴴ * Vᴴ - 1) δ := by
    rw [Matrix.conjTranspose_conjTranspose]
    exact H.v_orth
  exact (h.of_gram H.hδ).mono (by have := H.hδ'; linarith)

theorem opV (H : NearSvd A U s V δ E smin smax) : OpLe V (21 / 20) := by
  have := H.opVH.star (by norm_num)
  rwa [Matrix.conjTranspose_conjTranspose] at this

theorem pos (H : NearSvd A U s V δ E smin smax) (i : Fin n) : 0 < s i := H.hmin.trans_le (H.lo i)

theorem opS (H : NearSvd A U s V δ E smin smax) : OpLe (Matrix.diagonal (fun i => (s i : 𝕜))) smax :=
  opLe_diagonal (H.hmin.le.trans H.le) fun i => by
    rw [RCLike.norm_ofReal, abs_of_pos (H.pos i)]
    exact H.hi i

theorem opSinv (H : NearSvd A U s V δ E smin smax) : OpLe (Matrix.diagonal (fun i => ((s i : 𝕜))⁻¹)) (1 / smin) :=
  opLe_diagonal (by have := H.hmin; positivity) fun i => by
    rw [norm_inv, RCLike.norm_ofReal, abs_of_pos (H.pos i), ← one_div]
    exact one_div_le_one_div_of_le H.hmin (H.lo i)

theorem opA (H : NearSvd A U s V δ E smin smax) : OpLe A (61 / 50 * smax) := by
  have h0 : 0 ≤ smax := H.hmin.le.trans H.le
  have h1 := ((H.opU.mul (by norm_num) H.opS).mul (by positivity) H.opVH).add H.eq
  rw [add_sub_cancel] at h1
  refine h1.mono ?_
  have := H.hE'
  linarith

/-- The solution with the exact factors, for data near `A c`. -/
theorem exact_fit (H : NearSvd A U s V δ E smin smax) (c : Fin n → 𝕜) (x : Fin m → 𝕜) :
    norm2 (V *ᵥ (Matrix.diagonal (fun i => ((s i : 𝕜))⁻¹) *ᵥ (Uᴴ *ᵥ x)) - c) ≤
      11 / 5 * (smax / smin * (δ + E / smax)) * norm2 c + 6 / 5 * (norm2 (x - A *ᵥ c) / smin) := by
  set S := Matrix.diagonal (fun i => (s i : 𝕜)) with hS
  set S' := Matrix.diagonal (fun i => ((s i : 𝕜))⁻¹) with hS'
  have hne : ∀ i, (s i : 𝕜) ≠ 0 := fun i => by exact_mod_cast (H.pos i).ne'
  have hSS : S' * S = 1 := by
    rw [hS, hS', Matrix.diagonal_mul_diagonal, ← Matrix.diagonal_one]
    congr 1
    funext i
    exact inv_mul_cancel₀ (hne i)
  have hmax : 0 < smax := H.hmin.trans_le H.le
  have hmin := H.hmin
  have hδ := H.hδ
  have hE := H.hE
  set R := A - U * S * Vᴴ with hR
  set e := x - A *ᵥ c with he
  have hx : x = U *ᵥ (S *ᵥ (Vᴴ *ᵥ c)) + (R *ᵥ c + e) := by
    rw [he, hR, Matrix.sub_mulVec, Matrix.mulVec_mulVec, Matrix.mulVec_mulVec, Matrix.mul_assoc]
    abel
  have hsplit : V *ᵥ (S' *ᵥ (Uᴴ *ᵥ x)) - c = (V * Vᴴ - 1) *ᵥ c + (V *ᵥ (S' *ᵥ ((Uᴴ * U - 1) *ᵥ (S *ᵥ (Vᴴ *ᵥ c))))
      + V *ᵥ (S' *ᵥ (Uᴴ *ᵥ (R *ᵥ c + e)))) := by
    generalize R *ᵥ c + e = f at hx ⊢
    rw [hx]
    generalize hz : Vᴴ *ᵥ c = z
    have h1 : Uᴴ *ᵥ (U *ᵥ (S *ᵥ z) + f) = S *ᵥ z + ((Uᴴ * U - 1) *ᵥ (S *ᵥ z) + Uᴴ *ᵥ f) := by
      rw [Matrix.mulVec_add, Matrix.sub_mulVec (Uᴴ * U) 1, Matrix.one_mulVec, Matrix.mulVec_mulVec (S *ᵥ z) Uᴴ U]
      abel
    rw [h1, Matrix.mulVec_add S', Matrix.mulVec_mulVec z S' S, hSS, Matrix.one_mulVec, Matrix.mulVec_add S',
      Matrix.mulVec_add V, Matrix.mulVec_add V, Matrix.sub_mulVec (V * Vᴴ) 1 c, Matrix.one_mulVec,
      ← Matrix.mulVec_mulVec c V Vᴴ, hz]
    abel
  have b1 := H.v_orth c
  have b2 : norm2 (V *ᵥ (S' *ᵥ ((Uᴴ * U - 1) *ᵥ (S *ᵥ (Vᴴ *ᵥ c))))) ≤
      21 / 20 * (1 / smin * (δ * (smax * (21 / 20 * norm2 c)))) := by
    refine (H.opV _).trans (mul_le_mul_of_nonneg_left ?_ (by norm_num))
    refine (H.opSinv _).trans (mul_le_mul_of_nonneg_left ?_ (by positivity))
    refine (H.u_orth _).trans (mul_le_mul_of_nonneg_left ?_ hδ)
    refine (H.opS _).trans (mul_le_mul_of_nonneg_left ?_ hmax.le)
    exact H.opVH _
  have b3 : norm2 (V *ᵥ (S' *ᵥ (Uᴴ *ᵥ (R *ᵥ c + e)))) ≤ 21 / 20 * (1 / smin * (21 / 20 * (E * norm2 c + norm2 e))) := by
    refine (H.opV _).trans (mul_le_mul_of_nonneg_left ?_ (by norm_num))
    refine (H.opSinv _).trans (mul_le_mul_of_nonneg_left ?_ (by positivity))
    refine (H.opUH _).trans (mul_le_mul_of_nonneg_left ?_ (by norm_num))
    exact (norm2_add_le _ _).trans (add_le_add_left (H.eq c) _)
  rw [hsplit]
  refine (norm2_add_le _ _).trans ((add_le_add b1 ((norm2_add_le _ _).trans (add_le_add b2 b3))).trans ?_)
  have hc0 := norm2_nonneg c
  have he0 := norm2_nonneg e
  have e1 : 21 / 20 * (1 / smin * (δ * (smax * (21 / 20 * norm2 c)))) = 441 / 400 * (smax / smin * δ * norm2 c) := by
    ring
  have e2 : 21 / 20 * (1 / smin * (21 / 20 * (E * norm2 c + norm2 e))) =
      441 / 400 * (smax / smin * (E / smax) * norm2 c) + 441 / 400 * (norm2 e / smin) := by
    field_simp
    ring
  rw [e1, e2]
  have f1 : δ * norm2 c ≤ smax / smin * δ * norm2 c := by
    rw [mul_assoc]
    refine le_mul_of_one_le_left (by positivity) ?_
    rw [le_div_iff₀ hmin, one_mul]
    exact H.le
  have f2 : 0 ≤ smax / smin * (E / smax) * norm2 c := by positivity
  have f3 : 0 ≤ norm2 e / smin := by positivity
  have f4 : 0 ≤ smax / smin * δ * norm2 c := by positivity
  linarith

/-- Errors of the three steps of the fit. -/
theorem steps_error (H : NearSvd A U s V δ E smin smax) {x : Fin m → 𝕜} {r1 r2 y : Fin n → 𝕜} {a1 b1 a2 b2 a3 b3 : ℝ}
    (ha1 : 0 ≤ a1) (hb1 : 0 ≤ b1) (ha2 : 0 ≤ a2) (ha2' : a2 ≤ 1 / 10) (hb2 : 0 ≤ b2) (ha3 : 0 ≤ a3)
    (ha3' : a3 ≤ 1 / 10)
    (h1 : norm2 (r1 - Uᴴ *ᵥ x) ≤ a1 * norm2 x + b1)
    (h2 : norm2 (r2 - fun i => r1 i / (s i : 𝕜)) ≤ a2 * norm2 (fun i => r1 i / (s i : 𝕜)) + b2)
    (h3 : norm2 (y - V *ᵥ r2) ≤ a3 * norm2 r2 + b3) :
    norm2 (y - V *ᵥ (Matrix.diagonal (fun i => ((s i : 𝕜))⁻¹) *ᵥ (Uᴴ *ᵥ x))) ≤
      13 / 10 * ((a1 + a2 + a3) * (norm2 x / smin)) + 13 / 10 * (b1 / smin + b2) + b3 := by
  set S' := Matrix.diagonal (fun i => ((s i : 𝕜))⁻¹) with hS'
  have hw : (fun i => r1 i / (s i : 𝕜)) = S' *ᵥ r1 := by
    funext i
    rw [hS', Matrix.mulVec_diagonal, div_eq_inv_mul]
  rw [hw] at h2
  set q := S' *ᵥ (Uᴴ *ᵥ x) with hq
  have hmin := H.hmin
  set N := norm2 x / smin with hN
  have hN0 : 0 ≤ N := div_nonneg (norm2_nonneg x) hmin.le
  have hB0 : 0 ≤ b1 / smin := by positivity
  have q1 : norm2 q ≤ 21 / 20 * N := by
    have := (H.opSinv (Uᴴ *ᵥ x)).trans (mul_le_mul_of_nonneg_left (H.opUH x) (by positivity))
    calc norm2 q ≤ _ := this
      _ = _ := by rw [hN]; ring
  have w1 : norm2 (S' *ᵥ r1 - q) ≤ a1 * N + b1 / smin := by
    rw [hq, ← Matrix.mulVec_sub]
    refine ((H.opSinv _).trans (mul_le_mul_of_nonneg_left h1 (by positivity))).trans (le_of_eq ?_)
    rw [hN]
    ring
  have w2 : norm2 (S' *ᵥ r1) ≤ 21 / 20 * N + (a1 * N + b1 / smin) := (norm2_le_add _ q).trans (add_le_add q1 w1)
  have r1' : norm2 (r2 - q) ≤ 11 / 10 * (a1 * N + b1 / smin) + 21 / 20 * a2 * N + b2 := by
    refine (norm2_sub_le _ (S' *ᵥ r1) _).trans ?_
    have m1 := mul_le_mul_of_nonneg_left w2 ha2
    have m2 : a2 * (a1 * N + b1 / smin) ≤ 1 / 10 * (a1 * N + b1 / smin) :=
      mul_le_mul_of_nonneg_right ha2' (by positivity)
    linarith
  set X := norm2 (r2 - q) with hX
  have hX0 : 0 ≤ X := norm2_nonneg _
  have r2' : norm2 r2 ≤ 21 / 20 * N + X := (norm2_le_add _ q).trans (add_le_add q1 le_rfl)
  have y1 : norm2 (V *ᵥ r2 - V *ᵥ q) ≤ 21 / 20 * X := by
    rw [← Matrix.mulVec_sub]
    exact H.opV _
  have m3 := mul_le_mul_of_nonneg_left r2' ha3
  have m4 : a3 * X ≤ 1 / 10 * X := mul_le_mul_of_nonneg_right ha3' hX0
  have k1 : norm2 (y - V *ᵥ q) ≤ 21 / 20 * (a3 * N) + 23 / 20 * X + b3 := by
    refine (norm2_sub_le _ (V *ᵥ r2) _).trans ?_
    linarith
  refine k1.trans ?_
  have p1 : 0 ≤ a1 * N := by positivity
  have p2 : 0 ≤ a2 * N := by positivity
  have p3 : 0 ≤ a3 * N := by positivity
  linarith

/-- Fit of data near `A c`, with errors in all steps. -/
theorem fit_error (H : NearSvd A U s V δ E smin smax) {x : Fin m → 𝕜} {r1 r2 y : Fin n → 𝕜} {a1 b1 a2 b2 a3 b3 : ℝ}
    (ha1 : 0 ≤ a1) (ha1' : a1 ≤ 2 / 5) (hb1 : 0 ≤ b1) (ha2 : 0 ≤ a2) (ha2' : a2 ≤ 1 / 10) (hb2 : 0 ≤ b2) (ha3 : 0 ≤ a3)
    (ha3' : a3 ≤ 1 / 10) (hb3 : 0 ≤ b3)
    (h1 : norm2 (r1 - Uᴴ *ᵥ x) ≤ a1 * norm2 x + b1)
    (h2 : norm2 (r2 - fun i => r1 i / (s i : 𝕜)) ≤ a2 * norm2 (fun i => r1 i / (s i : 𝕜)) + b2)
    (h3 : norm2 (y - V *ᵥ r2) ≤ a3 * norm2 r2 + b3) (c : Fin n → 𝕜) :
    norm2 (y - c) ≤ 11 / 5 * (smax / smin * (δ + E / smax + (a1 + a2 + a3))) * norm2 c +
      2 * (norm2 (x - A *ᵥ c) / smin) + 13 / 10 * (b1 / smin + b2 + b3) := by
  have k1 := H.steps_error ha1 hb1 ha2 ha2' hb2 ha3 ha3' h1 h2 h3
  have k2 := H.exact_fit c x
  have k3 := norm2_sub_le y (V *ᵥ (Matrix.diagonal (fun i => ((s i : 𝕜))⁻¹) *ᵥ (Uᴴ *ᵥ x))) c
  have hmin := H.hmin
  have hx : norm2 x / smin ≤ 61 / 50 * (smax / smin * norm2 c) + norm2 (x - A *ᵥ c) / smin := by
    have h4 := (norm2_le_add x (A *ᵥ c)).trans (add_le_add_left (H.opA c) _)
    rw [div_le_iff₀ hmin]
    refine h4.trans (le_of_eq ?_)
    field_simp
  set Z := norm2 (x - A *ᵥ c) / smin with hZ
  have hZ0 : 0 ≤ Z := div_nonneg (norm2_nonneg _) hmin.le
  set K := smax / smin * norm2 c with hK
  have hK0 : 0 ≤ K := mul_nonneg (div_nonneg (hmin.le.trans H.le) hmin.le) (norm2_nonneg _)
  have m1 := mul_le_mul_of_nonneg_left hx (by positivity : 0 ≤ 13 / 10 * (a1 + a2 + a3))
  have m2 : (a1 + a2 + a3) * Z ≤ 3 / 5 * Z := mul_le_mul_of_nonneg_right (by linarith) hZ0
  have m3 : 0 ≤ (a1 + a2 + a3) * K := by positivity
  have e1 : 11 / 5 * (smax / smin * (δ + E / smax + (a1 + a2 + a3))) * norm2 c =
      11 / 5 * (smax / smin * (δ + E / smax)) * norm2 c + 11 / 5 * ((a1 + a2 + a3) * K) := by
    rw [hK]
    ring
  rw [e1]
  linarith

end NearSvd
end

end Verif.Sampling
