import Verif.Model.BasisPoints
import Verif.Props.C12_SymmetricRoots
import Verif.Props.C10_Selection
import Mathlib.Tactic.Linarith
import Mathlib.Tactic.NormNum
/-!
# C22: default sampling points in imaginary time and real frequency

`_default_sampling_points` takes the roots of the next basis function or, if there is none, the
extrema of the last one plus two outer points.  The English statement holds with two provisos, both
shown by witnesses: the points are strictly inside only if the derivative does not vanish at the
edges, and no points at all (not "two more than the extrema") are returned without extrema.
-/

namespace Verif.Props
open Verif Verif.Np Verif.Poly Verif.Roots Verif.Basis

/-- All roots lie in the domain, in ascending order; strictly inside unless the function vanishes at
an edge; strictly ascending unless an even function vanishes at the midpoint. -/
theorem roots_basic (p : PPoly Unit) (h : p.WF) (hs : p.symm () = 0 ∨ p.symm () = 1 ∨ p.symm () = -1)
    (eps : ℝ) (heps : 0 < eps) (F : ℝ → FVal ℝ) (alpha : ℕ) (ha : 1 ≤ alpha) :
    ∃ r, p.roots eps F alpha = some (.ok r) ∧ r.Pairwise (· ≤ ·) ∧
      (∀ x ∈ r, p.xmin ≤ x ∧ x ≤ p.xmax) ∧
      ((F p.xmin).val ≠ 0 → (F p.xmax).val ≠ 0 → ∀ x ∈ r, p.xmin < x ∧ x < p.xmax) ∧
      (p.symm () ≠ 1 ∨ (F ((p.xmax + p.xmin) / 2)).val ≠ 0 → r.Pairwise (· < ·)) := by
  have hmm := h.xmin_lt_xmax
  -- roots found on a grid inside `[m, xmax]`
  have key : ∀ (m : ℝ) (grid rr : List ℝ) (e : ℝ), (∀ x ∈ grid, m ≤ x ∧ x ≤ p.xmax) →
      FindAllSpec F grid (BracketedTo F e) rr →
      (∀ x ∈ rr, m ≤ x ∧ x ≤ p.xmax) ∧
      ((F p.xmax).val ≠ 0 → ∀ x ∈ rr, x < p.xmax) ∧ ((F m).val ≠ 0 → ∀ x ∈ rr, m < x) := by
    intro m grid rr e hg hsp
    refine ⟨?_, ?_, ?_⟩
    · intro x hx
      rcases hsp.sound x hx with ⟨h1, -⟩ | ⟨a, b, h1, -, h2⟩
      · exact hg x h1
      · exact ⟨(hg a h1.mem.1).1.trans h2.1.le, h2.2.1.le.trans (hg b h1.mem.2).2⟩
    · intro h0 x hx
      rcases hsp.sound x hx with ⟨h1, h2⟩ | ⟨a, b, h1, -, h2⟩
      · refine lt_of_le_of_ne (hg x h1).2 ?_
        rintro rfl; exact h0 h2
      · exact h2.2.1.trans_le (hg b h1.mem.2).2
    · intro h0 x hx
      rcases hsp.sound x hx with ⟨h1, h2⟩ | ⟨a, b, h1, -, h2⟩
      · refine lt_of_le_of_ne (hg x h1).1 ?_
        rintro rfl; exact h0 h2
      · exact (hg a h1.mem.1).1.trans_lt h2.1
  rcases hs with hs | hs | hs
  · obtain ⟨grid, r, hg, hr, hsp⟩ := C12_plain p h hs eps heps F alpha ha
    have hgr : ∀ x ∈ grid, p.xmin ≤ x ∧ x ≤ p.xmax := by
      have hne : p.knotList = p.knots 0 :: List.ofFn (fun i : Fin p.nseg => p.knots i.succ) := by
        simp [PPoly.knotList, List.ofFn_succ]
      have hk := knotList_pairwise h
      have hlast : ∀ hh, (p.knots 0 :: List.ofFn (fun i : Fin p.nseg => p.knots i.succ)).getLast hh
          ≤ p.xmax := by
        intro hh
        have := List.getLast_mem hh
        exact (mem_knotList h (by rw [congrArg (_ ∈ ·) hne]; exact this)).2
      rw [hne] at hk hg
      obtain ⟨g, hg', hp, -, hle, -⟩ := refineGrid_spec alpha (by omega) _ _ hk
      obtain rfl := Except.ok.inj (hg'.symm.trans hg)
      intro x hx
      refine ⟨?_, (hle x hx).trans (hlast _)⟩
      rcases List.mem_cons.1 hx with rfl | hx
      · exact le_refl _
      · exact ((List.pairwise_cons.1 hp).1 x hx).le
    obtain ⟨k1, k2, k3⟩ := key _ _ _ _ hgr hsp
    exact ⟨r, hr, hsp.sorted.imp le_of_lt, k1, fun h0 h1 x hx => ⟨k3 h0 x hx, k2 h1 x hx⟩,
      fun _ => hsp.sorted⟩
  · obtain ⟨r, hr, -, hp, hst, grid, rr, -, hgr, -, -, hsp, rfl⟩ := C12_even p h hs eps heps F alpha ha
    obtain ⟨k1, k2, -⟩ := key _ _ _ _ hgr hsp
    refine ⟨_, hr, hp, ?_, ?_, ?_⟩
    · intro x hx
      rcases List.mem_append.1 hx with hx | hx
      · obtain ⟨y, hy, rfl⟩ := List.mem_map.1 hx
        have := k1 y (List.mem_reverse.1 hy)
        have := mid_le_xmax h
        unfold mirror; unfold midpoint at *
        constructor <;> linarith
      · have := k1 x hx
        have := xmin_le_mid h
        constructor <;> linarith
    · intro _ h1 x hx
      have hm : p.xmin < midpoint p := by unfold midpoint; linarith
      rcases List.mem_append.1 hx with hx | hx
      · obtain ⟨y, hy, rfl⟩ := List.mem_map.1 hx
        have h1 := k1 y (List.mem_reverse.1 hy)
        have h2 := k2 ‹_› y (List.mem_reverse.1 hy)
        unfold mirror; unfold midpoint at *
        constructor <;> linarith
      · have h1' := k1 x hx
        exact ⟨by linarith, k2 h1 x hx⟩
    · rintro (h1 | h1)
      · exact absurd hs h1
      · exact hst h1
  · obtain ⟨r, hr, -, hp, -, grid, rr, rr', -, hgr, -, -, hsp, hrr, -, -, rfl⟩ :=
      C12_odd p h hs eps heps F alpha ha
    obtain ⟨k1, k2, -⟩ := key _ _ _ _ hgr hsp
    have hsub : ∀ x ∈ rr', x ∈ rr := by
      rcases hrr with rfl | rfl
      · exact fun _ h => h
      · exact fun _ h => List.mem_of_mem_tail h
    have hm : p.xmin < midpoint p := by unfold midpoint; linarith
    have hm2 : midpoint p < p.xmax := by unfold midpoint; linarith
    refine ⟨_, hr, hp.imp le_of_lt, ?_, ?_, fun _ => hp⟩
    · intro x hx
      rcases List.mem_append.1 hx with hx | hx
      · obtain ⟨y, hy, rfl⟩ := List.mem_map.1 hx
        have := k1 y (hsub _ (List.mem_reverse.1 hy))
        unfold mirror; unfold midpoint at *
        constructor <;> linarith
      · rcases List.mem_cons.1 hx with rfl | hx
        · exact ⟨hm.le, hm2.le⟩
        · have := k1 x (hsub x hx)
          constructor <;> linarith
    · intro _ h1 x hx
      rcases List.mem_append.1 hx with hx | hx
      · obtain ⟨y, hy, rfl⟩ := List.mem_map.1 hx
        have h1 := k1 y (hsub _ (List.mem_reverse.1 hy))
        have h2 := k2 ‹_› y (hsub _ (List.mem_reverse.1 hy))
        unfold mirror; unfold midpoint at *
        constructor <;> linarith
      · rcases List.mem_cons.1 hx with rfl | hx
        · exact ⟨hm, hm2⟩
        · have h1' := k1 x (hsub x hx)
          exact ⟨by linarith, k2 h1 x (hsub x hx)⟩

/-- The parities that occur: none, even, odd. -/
def ParityValue {ι : Type _} (p : PPoly ι) : Prop := ∀ l, p.symm l = 0 ∨ p.symm l = 1 ∨ p.symm l = -1

/-- Regular branch: the basis has another function, whose roots are returned. -/
theorem C22_regular {size : ℕ} (u : PPoly (Fin size)) (h : u.WF) (hp : ParityValue u)
    (hmin : u.xmin = -1) (hmax : u.xmax = 1) (eps : ℝ) (heps : 0 < eps) (F : Fin size → ℝ → FVal ℝ)
    (G : ℝ → FVal ℝ) (L : ℕ) (hL : L < size) :
    ∃ x warned, defaultPoints u eps F G L = some (.ok (x, warned)) ∧ (warned = true ↔ x.length ≠ L) ∧
      x.Pairwise (· ≤ ·) ∧ (∀ t ∈ x, -1 ≤ t ∧ t ≤ 1) ∧
      ((F ⟨L, hL⟩ (-1)).val ≠ 0 → (F ⟨L, hL⟩ 1).val ≠ 0 → ∀ t ∈ x, -1 < t ∧ t < 1) ∧
      (u.symm ⟨L, hL⟩ ≠ 1 ∨ (F ⟨L, hL⟩ 0).val ≠ 0 → x.Pairwise (· < ·)) := by
  obtain ⟨r, hr, h1, h2, h3, h4⟩ := roots_basic (u.select fun _ : Unit => ⟨L, hL⟩)
    ⟨h.pos, h.mono, h.dx_eq⟩ (hp _) eps heps (F ⟨L, hL⟩) 2 (by norm_num)
  have e1 : (u.select fun _ : Unit => (⟨L, hL⟩ : Fin size)).xmin = -1 := hmin
  have e2 : (u.select fun _ : Unit => (⟨L, hL⟩ : Fin size)).xmax = 1 := hmax
  rw [e1, e2] at h2 h3 h4
  refine ⟨r, decide (r.length ≠ L), ?_, by simp, h1, h2, h3, ?_⟩
  · unfold defaultPoints
    rw [if_neg (by rw [hmin, hmax]; simp)]
    simp only [dif_pos hL, hr]
  · intro hh
    apply h4
    rcases hh with hh | hh
    · exact Or.inl hh
    · right; norm_num; exact hh

/-- Fall-back branch: the extrema of the last function (roots of its derivative) with half-way points
to both edges; there are two more than extrema, provided that there is an extremum at all. -/
theorem C22_fallback {size : ℕ} (u : PPoly (Fin size)) (h : u.WF) (hp : ParityValue u)
    (hmin : u.xmin = -1) (hmax : u.xmax = 1) (eps : ℝ) (heps : 0 < eps) (F : Fin size → ℝ → FVal ℝ)
    (G : ℝ → FVal ℝ) (L : ℕ) (hL : size ≤ L) (hs : 0 < size) :
    ∃ maxima x warned,
      ((u.select fun _ : Unit => ⟨size - 1, by omega⟩).deriv 1).roots eps G 2 = some (.ok maxima) ∧
      defaultPoints u eps F G L = some (.ok (x, warned)) ∧ (warned = true ↔ x.length ≠ L) ∧
      (maxima ≠ [] → x.length = maxima.length + 2) ∧ (maxima = [] → x = []) ∧ (∀ t ∈ maxima, t ∈ x) ∧
      x.Pairwise (· ≤ ·) ∧ (∀ t ∈ x, -1 ≤ t ∧ t ≤ 1) ∧
      ((G (-1)).val ≠ 0 → (G 1).val ≠ 0 → (∀ t ∈ x, -1 < t ∧ t < 1) ∧
        (u.symm ⟨size - 1, by omega⟩ ≠ -1 ∨ (G 0).val ≠ 0 → 
          x.Pairwise (· < ·))) := by
  have hpar : ((u.select fun _ : Unit => (⟨size - 1, by omega⟩ : Fin size)).deriv 1).symm () = 0 ∨
      ((u.select fun _ : Unit => (⟨size - 1, by omega⟩ : Fin size)).deriv 1).symm () = 1 ∨
      ((u.select fun _ : Unit => (⟨size - 1, by omega⟩ : Fin size)).deriv 1).symm () = -1 := by
    change (-1) ^ 1 * u.symm _ = 0 ∨ (-1) ^ 1 * u.symm _ = 1 ∨ (-1) ^ 1 * u.symm _ = -1
    rcases hp ⟨size - 1, by omega⟩ with h | h | h <;> rw [h] <;> norm_num
  obtain ⟨r, hr, h1, h2, h3, h4⟩ := roots_basic
    ((u.select fun _ : Unit => ⟨size - 1, by omega⟩).deriv 1)
    ⟨h.pos, h.mono, h.dx_eq⟩ hpar eps heps G 2 (by norm_num)
  have e1 : ((u.select fun _ : Unit => (⟨size - 1, by omega⟩ : Fin size)).deriv 1).xmin = -1 := hmin
  have e2 : ((u.select fun _ : Unit => (⟨size - 1, by omega⟩ : Fin size)).deriv 1).xmax = 1 := hmax
  rw [e1, e2] at h2 h3 h4
  have hsym : ((u.select fun _ : Unit => (⟨size - 1, by omega⟩ : Fin size)).deriv 1).symm () =
    - u.symm ⟨size - 1, by omega⟩ := by
    change (-1) ^ 1 * u.symm _ = _; ring
  set x := (r.take 1).map (fun m => 0.5 * (m + u.xmin)) ++ r ++
    (r.drop (r.length - 1)).map fun m => 0.5 * (m + u.xmax) with hx
  refine ⟨r, x, decide (x.length ≠ L), hr, ?_, by simp, ?_, ?_,
    fun t ht => by rw [hx]; exact List.mem_append_left _ (List.mem_append_right _ ht), ?_, ?_, ?_⟩
  · unfold defaultPoints
    rw [if_neg (by rw [hmin, hmax]; simp)]
    simp only [dif_neg (not_lt.2 hL), dif_pos hs, hr, hx]
  · intro hne
    have : 0 < r.length := List.length_pos_iff.2 hne
    simp only [hx, List.length_append, List.length_map, List.length_take, List.length_drop]
    omega
  · rintro hr0; simp [hx, hr0]
  all_goals
    by_cases hne : r = []
    · simp [hx, hne]
    obtain ⟨a, r1, ha⟩ := List.exists_cons_of_ne_nil hne
    obtain ⟨r2, b, hb⟩ := List.eq_nil_or_concat r |>.resolve_left hne
    have hxe : x = 0.5 * (a + -1) :: (r ++ [0.5 * (b + 1)]) := by
      have t1 : r.take 1 = [a] := by rw [ha]; rfl
      have t2 : r.drop (r.length - 1) = [b] := by rw [hb]; simp
      rw [hx, t1, t2, hmin, hmax]; simp
    have hamem : a ∈ r := by rw [ha]; simp
    have hbmem : b ∈ r := by rw [hb]; simp
    have hamin : ∀ y ∈ r, a ≤ y := by
      intro y hy
      rw [ha] at hy h1
      rcases List.mem_cons.1 hy with rfl | hy
      · exact le_refl _
      · exact (List.pairwise_cons.1 h1).1 y hy
    have hbmax : ∀ y ∈ r, y ≤ b := by
      intro y hy
      rw [hb] at hy h1
      simp only [List.concat_eq_append] at hy h1
      rcases List.mem_append.1 hy with hy | hy
      · exact (List.pairwise_append.1 h1).2.2 y hy b (by simp)
      · rw [List.mem_singleton.1 hy]
    have ha2 := h2 a hamem
    have hb2 := h2 b hbmem
    rw [hxe]
  · rw [List.pairwise_cons, List.pairwise_append]
    refine ⟨?_, h1, by simp, ?_⟩
    · intro y hy
      rcases List.mem_append.1 hy with hy | hy
      · have := hamin y hy; linarith
      · rw [List.mem_singleton.1 hy]
        have := hamin b hbmem; linarith
    · intro y hy z hz
      rw [List.mem_singleton.1 hz]
      have := hbmax y hy; linarith
  · intro t ht
    rcases List.mem_cons.1 ht with rfl | ht
    · constructor <;> linarith
    · rcases List.mem_append.1 ht with ht | ht
      · exact h2 t ht
      · rw [List.mem_singleton.1 ht]; constructor <;> linarith
  · intro g1 g2
    have h3 := h3 g1 g2
    have ha3 := h3 a hamem
    have hb3 := h3 b hbmem
    refine ⟨?_, ?_⟩
    · intro t ht
      rcases List.mem_cons.1 ht with rfl | ht
      · constructor <;> linarith
      · rcases List.mem_append.1 ht with ht | ht
        · exact h3 t ht
        · rw [List.mem_singleton.1 ht]; constructor <;> linarith
    · intro hh
      have hst : r.Pairwise (· < ·) := by
        apply h4
        rcases hh with hh | hh
        · left; rw [hsym]; intro h; apply hh; linarith
        · right; norm_num; exact hh
      rw [List.pairwise_cons, List.pairwise_append]
      refine ⟨?_, hst, by simp, ?_⟩
      · intro y hy
        rcases List.mem_append.1 hy with hy | hy
        · have := hamin y hy; linarith
        · rw [List.mem_singleton.1 hy]
          have := hamin b hbmem; linarith
      · intro y hy z hz
        rw [List.mem_singleton.1 hz]
        have := hbmax y hy; linarith

/-- The public functions scale these points to `[0, beta]` ... -/
theorem C22_tau (beta : ℝ) (hb : 0 < beta) (x : List ℝ) (hx : ∀ t ∈ x, -1 ≤ t ∧ t ≤ 1) :
    (scaleTau beta x).length = x.length ∧ (∀ t ∈ scaleTau beta x, 0 ≤ t ∧ t ≤ beta) ∧
      ((∀ t ∈ x, -1 < t ∧ t < 1) → ∀ t ∈ scaleTau beta x, 0 < t ∧ t < beta) ∧
      (x.Pairwise (· ≤ ·) → (scaleTau beta x).Pairwise (· ≤ ·)) ∧
      (x.Pairwise (· < ·) → (scaleTau beta x).Pairwise (· < ·)) := by
  unfold scaleTau
  have hb2 : 0 < beta / 2 := by linarith
  refine ⟨by simp, ?_, ?_, ?_, ?_⟩
  · intro t ht
    obtain ⟨y, hy, rfl⟩ := List.mem_map.1 ht
    have := hx y hy
    constructor <;> nlinarith
  · intro hs t ht
    obtain ⟨y, hy, rfl⟩ := List.mem_map.1 ht
    have := hs y hy
    constructor <;> nlinarith
  · intro h
    rw [List.pairwise_map]
    exact h.imp fun hab => mul_le_mul_of_nonneg_left (by linarith) hb2.le
  · intro h
    rw [List.pairwise_map]
    exact h.imp fun hab => mul_lt_mul_of_pos_left (by linarith) hb2

/-- ... and `[-wmax, wmax]`. -/
theorem C22_omega (wmax : ℝ) (hw : 0 < wmax) (x : List ℝ) (hx : ∀ t ∈ x, -1 ≤ t ∧ t ≤ 1) :
    (scaleOmega wmax x).length = x.length ∧ (∀ t ∈ scaleOmega wmax x, -wmax ≤ t ∧ t ≤ wmax) ∧
      ((∀ t ∈ x, -1 < t ∧ t < 1) → ∀ t ∈ scaleOmega wmax x, -wmax < t ∧ t < wmax) ∧
      (x.Pairwise (· ≤ ·) → (scaleOmega wmax x).Pairwise (· ≤ ·)) ∧
      (x.Pairwise (· < ·) → (scaleOmega wmax x).Pairwise (· < ·)) := by
  unfold scaleOmega
  refine ⟨by simp, ?_, ?_, ?_, ?_⟩
  · intro t ht
    obtain ⟨y, hy, rfl⟩ := List.mem_map.1 ht
    have := hx y hy
    constructor <;> nlinarith
  · intro hs t ht
    obtain ⟨y, hy, rfl⟩ := List.mem_map.1 ht
    have := hs y hy
    constructor <;> nlinarith
  · intro h
    rw [List.pairwise_map]
    exact h.imp fun hab => mul_le_mul_of_nonneg_left hab hw.le
  · intro h
    rw [List.pairwise_map]
    exact h.imp fun hab => mul_lt_mul_of_pos_left hab hw

/-- Unscaled functions are required: any other domain is refused. -/
theorem C22_domain {size : ℕ} (u : PPoly (Fin size)) (eps : ℝ) (F : Fin size → ℝ → FVal ℝ)
    (G : ℝ → FVal ℝ) (L : ℕ) (h : u.xmin ≠ -1 ∨ u.xmax ≠ 1) :
    defaultPoints u eps F G L = some (.error .valueError) := by
  unfold defaultPoints
  rw [if_pos h]

/-! Non-vacuity and witnesses: the pair `1, x` on `[-1, 1]` and the true function values. -/

theorem exPair_parity : ParityValue exPair := fun l => Or.inr (neg_one_pow_eq_or ℝ _)

/-- One requested point: the root of `x`. -/
example : ∃ x w, defaultPoints exPair (1 / 1000) (fun l x => FVal.mk' (if l = 0 then 1 else x))
    (fun _ => FVal.mk' 1) 1 = some (.ok (x, w)) ∧ x.Pairwise (· < ·) ∧ ∀ t ∈ x, -1 < t ∧ t < 1 := by
  obtain ⟨x, w, h1, -, -, -, h2, h3⟩ := C22_regular exPair exPair_WF exPair_parity rfl rfl (1 / 1000)
    (by norm_num) (fun l x => FVal.mk' (if l = 0 then 1 else x)) (fun _ => FVal.mk' 1) 1 (by norm_num)
  refine ⟨x, w, h1, h3 (Or.inl ?_), h2 ?_ ?_⟩
  · change ((-1 : ℝ)) ^ 1 ≠ 1; norm_num
  · simp [FVal.mk']
  · simp [FVal.mk']

/-- Two requested points, fall-back branch: `x` has no extrema, so no points are returned (with a
warning). -/
theorem C22_no_extrema : defaultPoints exPair (1 / 1000)
    (fun l x => FVal.mk' (if l = 0 then 1 else x)) (fun _ => FVal.mk' 1) 2 = some (.ok ([], true)) := by
  obtain ⟨m, x, w, hm, h1, h2, -, h3, -⟩ := C22_fallback exPair exPair_WF exPair_parity rfl rfl (1 / 1000)
    (by norm_num) (fun l x => FVal.mk' (if l = 0 then 1 else x)) (fun _ => FVal.mk' 1) 2 (by norm_num)
    (by norm_num)
  obtain ⟨r, hr, -, -, -, grid, rr, -, -, -, -, hsp, rfl⟩ := C12_even
    ((exPair.select fun _ : Unit => (⟨2 - 1, by omega⟩ : Fin 2)).deriv 1)
    ⟨exPair_WF.pos, exPair_WF.mono, exPair_WF.dx_eq⟩
    (by change (-1 : ℝ) ^ 1 * (-1) ^ 1 = 1; norm_num) (1 / 1000) (by norm_num)
    (fun _ => FVal.mk' 1) 2 (by norm_num)
  have hrr : rr = [] := by
    apply List.eq_nil_iff_forall_not_mem.2
    intro y hy
    rcases hsp.sound y hy with ⟨-, h⟩ | ⟨a, b, -, h, -⟩
    · simp [FVal.mk'] at h
    · simp [FVal.mk'] at h
      linarith
  have hm0 : m = [] := by
    have := Except.ok.inj (Option.some.inj (hm.symm.trans hr))
    rw [this, hrr]; rfl
  have hx := h3 hm0
  subst hx
  rw [h1, h2.2 (by simp)]

/-- Disagreement with "strictly inside": the constant function `1` (its derivative vanishes
everywhere, also at the edges) gets the edges `-1` and `1` as sampling points. -/
theorem C22_edges : ∃ x w, defaultPoints (exPair.select fun _ : Fin 1 => 0) (1 / 1000)
    (fun _ _ => FVal.mk' 1) (fun _ => FVal.mk' 0) 1 = some (.ok (x, w)) ∧ 1 ∈ x := by
  obtain ⟨m, x, w, hm, h1, -, -, -, h2, -⟩ := C22_fallback (exPair.select fun _ : Fin 1 => 0)
    ⟨exPair_WF.pos, exPair_WF.mono, exPair_WF.dx_eq⟩ (fun l => exPair_parity _) rfl rfl (1 / 1000)
    (by norm_num) (fun _ _ => FVal.mk' 1) (fun _ => FVal.mk' 0) 1 (by norm_num) (by norm_num)
  refine ⟨x, w, h1, ?_⟩
  set q := (((exPair.select fun _ : Fin 1 => 0).select fun _ : Unit => (⟨1 - 1, by omega⟩ : Fin 1)).deriv 1)
    with hq
  obtain ⟨r, hr, -, -, -, grid, rr, rr', -, hgr, hmg, hkn, hsp, hrr, -, -, hre⟩ := C12_odd q
    ⟨exPair_WF.pos, exPair_WF.mono, exPair_WF.dx_eq⟩
    (by change (-1 : ℝ) ^ 1 * (-1) ^ 0 = -1; norm_num) (1 / 1000) (by norm_num)
    (fun _ => FVal.mk' 0) 2 (by norm_num)
  have hmr := Except.ok.inj (Option.some.inj (hm.symm.trans hr))
  have hmid : midpoint q = 0 := by
    change ((1 : ℝ) + -1) / 2 = 0; norm_num
  have hone : (1 : ℝ) ∈ rr := by
    refine hsp.zeros 1 (hkn 1 ?_ ?_) (by simp [FVal.mk'])
    · have : (1 : ℝ) = q.knots (Fin.last 1) := rfl
      rw [this]
      exact (List.mem_ofFn' _ _).2 ⟨_, rfl⟩
    · rw [hmid]; norm_num
  have hzero : (0 : ℝ) ∈ rr := hsp.zeros 0 (hmid ▸ hmg) (by simp [FVal.mk'])
  have hone' : (1 : ℝ) ∈ rr' := by
    rcases hrr with rfl | rfl
    · exact hone
    · match rr, hone, hzero, hsp.sorted with
      | a :: t, hone, hzero, hs =>
        rcases List.mem_cons.1 hone with rfl | h
        · rcases List.mem_cons.1 hzero with h | h
          · norm_num at h
          · have := (List.pairwise_cons.1 hs).1 0 h
            norm_num at this
        · exact h
  apply h2
  rw [hmr, hre]
  simp [hone']

end Verif.Props
