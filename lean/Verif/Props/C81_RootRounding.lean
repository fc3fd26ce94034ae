import Verif.Lemmas.RootsFl
import Verif.Lemmas.Piecewise
import Verif.Props.C06_ContinuousRoots
import Verif.Props.C79_EvalRounding
/-!
# C81 — root search in floating-point arithmetic
-/

namespace Verif.Props
open Verif Verif.Np Verif.Roots Verif.Spec

/-- Without rounding, this is the search of `Model/Roots.lean`. -/
theorem C81_exact (eps : ℝ) (f : ℝ → FVal ℝ) (grid : List ℝ) : findAllContFl id eps f grid = findAllCont eps f grid := by
  have h : ∀ xeps, bisectContFl id f xeps = bisectCont f xeps := fun xeps => by
    delta bisectContFl bisectCont
    rfl
  unfold findAllContFl findAllCont
  simp only [h, id]

theorem absMax_eq {grid : List ℝ} {M : ℝ} (h1 : ∀ x ∈ grid, |x| ≤ M) (h2 : ∃ x ∈ grid, |x| = M) : absMax grid = M := by
  have key : ∀ (l : List ℝ) (m : ℝ), m ≤ l.foldl (fun m x => max m |x|) m ∧
      (∀ x ∈ l, |x| ≤ l.foldl (fun m x => max m |x|) m) ∧ ∀ N, m ≤ N → (∀ x ∈ l, |x| ≤ N) →
        l.foldl (fun m x => max m |x|) m ≤ N := by
    intro l
    induction l with
    | nil => intro m; simp
    | cons y l ih =>
      intro m
      simp only [List.foldl_cons, List.mem_cons]
      obtain ⟨h1, h2, h3⟩ := ih (max m |y|)
      refine ⟨le_trans (le_max_left _ _) h1, ?_, fun N hm hN => h3 N (max_le hm (hN y (Or.inl rfl))) fun x hx =>
        hN x (Or.inr hx)⟩
      rintro x (rfl | hx)
      · exact le_trans (le_max_right _ _) h1
      · exact h2 x hx
  obtain ⟨x, hx, hxM⟩ := h2
  refine le_antisymm ((key grid 0).2.2 M (by rw [← hxM]; exact abs_nonneg _) h1) ?_
  rw [← hxM]
  exact (key grid 0).2.1 x hx

/-- What is needed of the grid: its points are floating-point numbers, at least `2^(1-p) M` apart, `M` being the largest
magnitude, which is not tiny. -/
structure GridOk (p : ℕ) (emin : ℤ) (grid : List ℝ) (M : ℝ) : Prop where
  float : ∀ x ∈ grid, IsFloat p emin x
  le : ∀ x ∈ grid, |x| ≤ M
  max : ∃ x ∈ grid, |x| = M
  large : (2:ℝ) ^ (emin + 2 * p) ≤ M
  gap : grid.Pairwise fun a b => (2:ℝ) ^ (1 - (p:ℤ)) * M ≤ b - a

section
variable {p : ℕ} {emin : ℤ} {rd : ℝ → ℝ} {f : ℝ → FVal ℝ} {grid : List ℝ} {M : ℝ}

theorem GridOk.pos (h : GridOk p emin grid M) : 0 < M := lt_of_lt_of_le (by positivity) h.large

theorem GridOk.xeps_pos (h : GridOk p emin grid M) : 0 < (2:ℝ) ^ (1 - (p:ℤ)) * M := mul_pos (by positivity) h.pos

theorem GridOk.isFloat (h : GridOk p emin grid M) : IsFloat p emin M := by
  obtain ⟨x, hx, rfl⟩ := h.max
  rcases abs_choice x with e | e <;> rw [e]
  · exact h.float x hx
  · exact (h.float x hx).neg

theorem GridOk.lt (h : GridOk p emin grid M) : grid.Pairwise (· < ·) :=
  h.gap.imp fun hab => by linarith [h.xeps_pos]

theorem GridOk.far (h : GridOk p emin grid M) {a b : ℝ} (ha : a ∈ grid) (hb : b ∈ grid) (hab : a < b) :
    (2:ℝ) ^ (1 - (p:ℤ)) * M ≤ b - a := by
  have hx := h.xeps_pos
  have hs : Std.Symm fun a b : ℝ => (a < b → (2:ℝ) ^ (1 - (p:ℤ)) * M ≤ b - a) ∧ (b < a → (2:ℝ) ^ (1 - (p:ℤ)) * M ≤ a - b) :=
    ⟨fun a b h => ⟨h.2, h.1⟩⟩
  have := List.Pairwise.forall_of_forall (l := grid) (R := fun a b : ℝ =>
      (a < b → (2:ℝ) ^ (1 - (p:ℤ)) * M ≤ b - a) ∧ (b < a → (2:ℝ) ^ (1 - (p:ℤ)) * M ≤ a - b))
    (fun x _ => ⟨fun h => absurd h (lt_irrefl _), fun h => absurd h (lt_irrefl _)⟩)
    (h.gap.imp fun hab => ⟨fun _ => hab, fun h => by linarith⟩) ha hb
  exact this.1 hab

/-- The bisection ends for brackets of floating-point numbers: it gives one point for each, one end of a bracket narrower
than `2^(1-p) M`. -/
theorem C81_bisect (hr : RoundsToNearest p emin rd) (hp : 0 < p) (hM : IsFloat p emin M) (hM' : (2:ℝ) ^ (emin + 2 * p) ≤ M)
    (br : List (ℝ × ℝ)) (hne : br ≠ []) (hbr : ∀ q ∈ br, IsFloat p emin q.1 ∧ IsFloat p emin q.2 ∧ |q.1| ≤ M ∧ |q.2| ≤ M ∧
      q.1 < q.2 ∧ (f q.1).signbit ≠ (f q.2).signbit) :
    ∃ rs, bisectContFl rd f ((2:ℝ) ^ (1 - (p:ℤ)) * M) (br.map fun q => ⟨q.1, q.2, f q.1, f q.2⟩) = some rs ∧
      ∃ ms, rs.Perm ms ∧ List.Forall₂ (fun q m => ∃ a b, IsFloat p emin a ∧ IsFloat p emin b ∧ q.1 ≤ a ∧ a < b ∧ b ≤ q.2 ∧
        b - a < (2:ℝ) ^ (1 - (p:ℤ)) * M ∧ (f a).signbit ≠ (f b).signbit ∧ (m = a ∨ m = b)) br ms := by
  obtain ⟨n, hn⟩ := exists_nat_ge (2 * M / (2:ℝ) ^ emin)
  have hq : (0:ℝ) < (2:ℝ) ^ emin := by positivity
  rw [div_le_iff₀ hq] at hn
  set st := br.map fun q => (⟨q.1, q.2, f q.1, f q.2⟩ : Roots.Bracket ℝ ℝ) with hst
  have hmem : ∀ b ∈ st, ∃ q ∈ br, b = ⟨q.1, q.2, f q.1, f q.2⟩ := by
    intro b hb
    rw [hst, List.mem_map] at hb
    obtain ⟨q, hq, rfl⟩ := hb
    exact ⟨q, hq, rfl⟩
  obtain ⟨rs, hrs, ms, hpm, hf⟩ := bisectContFl_spec (f := f) hr hp hM' hM n st (by simpa [hst] using hne)
    (by
      intro b hb
      obtain ⟨q, hq, rfl⟩ := hmem b hb
      obtain ⟨-, -, -, -, h5, h6⟩ := hbr q hq
      exact ⟨h5, rfl, rfl, h6⟩)
    (by
      intro b hb
      obtain ⟨q, hq, rfl⟩ := hmem b hb
      obtain ⟨h1, h2, h3, h4, -, -⟩ := hbr q hq
      exact ⟨h1, h2, h3, h4⟩)
    (by
      intro b hb
      obtain ⟨q, hq, rfl⟩ := hmem b hb
      obtain ⟨-, -, h3, h4, -, -⟩ := hbr q hq
      rw [abs_le] at h3 h4
      dsimp only
      linarith [h3.1, h4.2])
  rw [hst, List.forall₂_map_left_iff] at hf
  refine ⟨rs, hrs, ms, hpm, hf.imp ?_⟩
  rintro q m ⟨-, -, -, h⟩
  exact h

/-- `find_all(f, grid)` in floating-point arithmetic: it terminates for every `f`, and the result is strictly ascending,
with all grid zeros and exactly one point per sign change, located to `2^(1-p) M`; all its points are floating-point
numbers. -/
theorem C81_find_all (hr : RoundsToNearest p emin rd) (hp : 0 < p) (hg : GridOk p emin grid M) :
    ∃ r, findAllContFl rd ((2:ℝ) ^ (1 - (p:ℤ))) f grid = some (.ok r) ∧
      FindAllSpec f grid (fun a b m => a < m ∧ m < b ∧ ∃ a' b', IsFloat p emin a' ∧ IsFloat p emin b' ∧
        a ≤ a' ∧ a' < b' ∧ b' ≤ b ∧ b' - a' < (2:ℝ) ^ (1 - (p:ℤ)) * M ∧
        (f a').signbit ≠ (f b').signbit ∧ (m = a' ∨ m = b')) r ∧ ∀ x ∈ r, IsFloat p emin x := by
  have key : ∃ r, findAllContFl rd ((2:ℝ) ^ (1 - (p:ℤ))) f grid = some (.ok r) ∧
      FindAllSpec f grid (fun a b m => a < m ∧ m < b ∧ ∃ a' b', IsFloat p emin a' ∧ IsFloat p emin b' ∧
        a ≤ a' ∧ a' < b' ∧ b' ≤ b ∧ b' - a' < (2:ℝ) ^ (1 - (p:ℤ)) * M ∧
        (f a').signbit ≠ (f b').signbit ∧ (m = a' ∨ m = b')) r := by
    refine findAllWith_spec f _ grid hg.lt _ (fun a b m h => ⟨h.1.le, h.2.1⟩) ?_
    intro st hne hinv hmem
    have hx : rd ((2:ℝ) ^ (1 - (p:ℤ)) * absMax grid) = (2:ℝ) ^ (1 - (p:ℤ)) * M := by
      rw [absMax_eq hg.le hg.max, hr.rd_eq (isFloat_scaled hg.isFloat hg.large)]
    obtain ⟨n, hn⟩ := exists_nat_ge (2 * M / (2:ℝ) ^ emin)
    have hq : (0:ℝ) < (2:ℝ) ^ emin := by positivity
    rw [div_le_iff₀ hq] at hn
    obtain ⟨rs, hrs, ms, hpm, hf⟩ := bisectContFl_spec (f := f) hr hp hg.large hg.isFloat n st hne hinv
      (fun br hbr => ⟨hg.float _ (hmem br hbr).1, hg.float _ (hmem br hbr).2, hg.le _ (hmem br hbr).1,
        hg.le _ (hmem br hbr).2⟩)
      (fun br hbr => by
        have h1 := abs_le.1 (hg.le _ (hmem br hbr).1)
        have h2 := abs_le.1 (hg.le _ (hmem br hbr).2)
        linarith [h1.1, h2.2])
    refine ⟨rs, by rw [hx, hrs]; rfl, ms, hpm, ?_⟩
    rw [List.forall₂_iff_get] at hf ⊢
    refine ⟨hf.1, fun i h1 h2 => ?_⟩
    obtain ⟨-, -, h3, h4⟩ := hf.2 i h1 h2
    have hi := List.get_mem st ⟨i, h1⟩
    have hin : HasInside p emin (st.get ⟨i, h1⟩).a (st.get ⟨i, h1⟩).b := by
      have hb := hmem _ hi
      have hl := (hinv _ hi).lt
      exact exists_between_of_far hp (le_trans (zpow_le_zpow_right₀ (by norm_num) (by omega)) hg.large)
        (hg.le _ hb.1) (hg.le _ hb.2) (hg.far hb.1 hb.2 hl)
    exact ⟨(h3 hin).1, (h3 hin).2, h4⟩
  obtain ⟨r, hr', hs⟩ := key
  refine ⟨r, hr', hs, fun x hx => ?_⟩
  rcases hs.sound x hx with h | ⟨a, b, -, -, -, -, a', b', ha', hb', -, -, -, -, -, rfl | rfl⟩
  · exact hg.float x h.1
  · exact ha'
  · exact hb'

/-- If the values `f` are those of continuous functions `g`, up to `E`, every point reported is within the tolerance of a
point where `g` is at most `E`; and between neighbouring grid points where `g` has different signs and exceeds `E`,
exactly one point is reported. -/
theorem C81_accuracy (hr : RoundsToNearest p emin rd) (hp : 0 < p) (hg : GridOk p emin grid M) (g : ℝ → ℝ → ℝ → ℝ) (E : ℝ → ℝ → ℝ)
    (hcont : ∀ a b, Adjacent grid a b → ContinuousOn (g a b) (Set.Icc a b))
    (herr : ∀ a b, Adjacent grid a b → ∀ x, IsFloat p emin x → a ≤ x → x ≤ b → |(f x).val - g a b x| ≤ E a b) :
    ∃ r, findAllContFl rd ((2:ℝ) ^ (1 - (p:ℤ))) f grid = some (.ok r) ∧ r.Pairwise (· < ·) ∧
      (∀ x ∈ r, (x ∈ grid ∧ (f x).val = 0) ∨ ∃ a b, Adjacent grid a b ∧ a < x ∧ x < b ∧
        ∃ z, a ≤ z ∧ z ≤ b ∧ |x - z| < (2:ℝ) ^ (1 - (p:ℤ)) * M ∧ |g a b z| ≤ E a b) ∧
      (∀ x ∈ grid, (f x).val = 0 → x ∈ r) ∧
      ∀ a b, Adjacent grid a b → g a b a * g a b b < 0 → E a b < |g a b a| → E a b < |g a b b| →
        ∃ x, (x ∈ r ∧ a < x ∧ x < b) ∧ ∀ y, y ∈ r ∧ a ≤ y ∧ y ≤ b → y = x := by
  obtain ⟨r, hr', hs, -⟩ := C81_find_all (f := f) hr hp hg
  refine ⟨r, hr', hs.sorted, ?_, hs.zeros, ?_⟩
  · intro x hx
    rcases hs.sound x hx with h | ⟨a, b, hab, -, h1, h2, a', b', ha', hb', h3, h4, h5, h6, h7, h8⟩
    · exact Or.inl h
    · refine Or.inr ⟨a, b, hab, h1, h2, ?_⟩
      have hd : ∀ z, a' ≤ z → z ≤ b' → |x - z| < (2:ℝ) ^ (1 - (p:ℤ)) * M := by
        intro z hz1 hz2
        rw [abs_lt]
        rcases h8 with rfl | rfl <;> constructor <;> linarith
      have ea := abs_le.1 (herr a b hab a' ha' h3 (h4.le.trans h5))
      have eb := abs_le.1 (herr a b hab b' hb' (h3.trans h4.le) h5)
      rcases le_or_gt (g a b a' * g a b b') 0 with hle | hgt
      · have hc : ContinuousOn (g a b) (Set.uIcc a' b') := by
          rw [Set.uIcc_of_le h4.le]
          exact (hcont a b hab).mono (Set.Icc_subset_Icc h3 h5)
        have h0 : (0 : ℝ) ∈ Set.uIcc (g a b a') (g a b b') := by
          rw [Set.mem_uIcc]
          rcases mul_nonpos_iff.1 hle with h | h
          · exact Or.inr ⟨h.2, h.1⟩
          · exact Or.inl ⟨h.1, h.2⟩
        obtain ⟨z, hz, hz0⟩ := intermediate_value_uIcc hc h0
        rw [Set.uIcc_of_le h4.le, Set.mem_Icc] at hz
        refine ⟨z, h3.trans hz.1, hz.2.trans h5, hd z hz.1 hz.2, ?_⟩
        rw [hz0, abs_zero]
        linarith [ea.1, ea.2]
      · have hm := FVal.mul_nonpos_of_signbit_ne h7
        rcases pos_and_pos_or_neg_and_neg_of_mul_pos hgt with ⟨p1, p2⟩ | ⟨p1, p2⟩
        · rcases mul_nonpos_iff.1 hm with ⟨-, h⟩ | ⟨h, -⟩
          · exact ⟨b', h3.trans h4.le, h5, hd b' h4.le le_rfl, by rw [abs_of_pos p2]; linarith [eb.1]⟩
          · exact ⟨a', h3, h4.le.trans h5, hd a' le_rfl h4.le, by rw [abs_of_pos p1]; linarith [ea.1]⟩
        · rcases mul_nonpos_iff.1 hm with ⟨h, -⟩ | ⟨-, h⟩
          · exact ⟨a', h3, h4.le.trans h5, hd a' le_rfl h4.le, by rw [abs_of_neg p1]; linarith [ea.2]⟩
          · exact ⟨b', h3.trans h4.le, h5, hd b' h4.le le_rfl, by rw [abs_of_neg p2]; linarith [eb.2]⟩
  · intro a b hab hlt h1 h2
    have hl := hab.lt hg.lt
    have ea := abs_le.1 (herr a b hab a (hg.float _ hab.mem.1) le_rfl hl.le)
    have eb := abs_le.1 (herr a b hab b (hg.float _ hab.mem.2) hl.le le_rfl)
    have hf : (f a).val * (f b).val < 0 := by
      rcases mul_neg_iff.1 hlt with ⟨q1, q2⟩ | ⟨q1, q2⟩
      · rw [abs_of_pos q1] at h1
        rw [abs_of_neg q2] at h2
        exact mul_neg_of_pos_of_neg (by linarith [ea.1]) (by linarith [eb.2])
      · rw [abs_of_neg q1] at h1
        rw [abs_of_pos q2] at h2
        exact mul_neg_of_neg_of_pos (by linarith [ea.2]) (by linarith [eb.1])
    obtain ⟨x, ⟨hx, hx1, hx2⟩, hgood, hu⟩ := hs.changes a b hab hf
    refine ⟨x, ⟨hx, hgood.1, hgood.2.1⟩, fun y hy => ?_⟩
    rcases hy.2.2.lt_or_eq with hyb | rfl
    · exact hu y ⟨hy.1, hy.2.1, hyb⟩
    · -- `b` itself is not a root
      exfalso
      rcases hs.sound y hy.1 with h | ⟨a', b', hab', -, h1', h2', -⟩
      · rw [h.2, mul_zero] at hf
        exact lt_irrefl _ hf
      · rcases hab'.no_between hg.lt hab.mem.2 with h | h <;> linarith

end

section
open Verif.Poly Verif.Kernel
variable {p : ℕ} {emin : ℤ} {rd : ℝ → ℝ} {f : ℝ → FVal ℝ} {grid : List ℝ} {M : ℝ}

/-- The search for roots of a piecewise polynomial as it is evaluated in floating-point arithmetic: every point reported
is within the tolerance of a point where the polynomial of the segment is at most `B + J`, and there is a point between
neighbouring grid points of a segment where the polynomial exceeds this with different signs.  `B` is the bound of C79 on
the errors of the values, `J` bounds the jumps at the knots.  The knots which lie between points of the grid must be on
the grid. -/
theorem C81_poly {A : Arith} {rt : ℝ → ℝ} {u eta : ℝ} (hA : A.Ok u eta)
    (hrt : ∀ a, 0 ≤ a → |rt a - Real.sqrt a| ≤ u * Real.sqrt a) (hu0 : 0 < u) (hu : u ≤ 1 / 1000) (he : eta ≤ u)
    {P : PPoly Unit} (hP : KnotsOk P u eta) (hc : ∀ i l, P.coef i l ≠ [])
    (hn : ∀ i l, 400 * ((P.coef i l).length : ℝ) ^ 2 * relSize (P.knots i.castSucc) (P.knots i.succ) * u ≤ 1)
    (hr : RoundsToNearest p emin rd) (hp : 0 < p) (hg : GridOk p emin grid M)
    (hin : ∀ x ∈ grid, P.knots 0 ≤ x ∧ x ≤ P.knots (Fin.last P.nseg))
    (hknots : ∀ j, (∃ x ∈ grid, x ≤ P.knots j) → (∃ x ∈ grid, P.knots j ≤ x) → P.knots j ∈ grid)
    (hf : ∀ x, IsFloat p emin x → P.knots 0 ≤ x → x ≤ P.knots (Fin.last P.nseg) →
      ∃ v, P.callFl A rt x = .ok v ∧ (f x).val = v ())
    {B J : ℝ} (hB : ∀ i, 75 * ((P.coef i ()).length : ℝ) ^ 2 * relSize (P.knots i.castSucc) (P.knots i.succ) *
      (u * ((P.coef i ()).map fun a => |a|).sum + eta) * Real.sqrt (2 / (P.knots i.succ - P.knots i.castSucc)) + eta ≤ B)
    (hJ0 : 0 ≤ J) (hJ : ∀ i j : Fin P.nseg, (i : ℕ) + 1 = j →
      |segFun (P.knots i.castSucc) (P.knots i.succ) (P.coef i ()) (P.knots i.succ) -
        segFun (P.knots j.castSucc) (P.knots j.succ) (P.coef j ()) (P.knots i.succ)| ≤ J) :
    ∃ r, findAllContFl rd ((2:ℝ) ^ (1 - (p:ℤ))) f grid = some (.ok r) ∧ r.Pairwise (· < ·) ∧
      (∀ x ∈ r, (x ∈ grid ∧ (f x).val = 0) ∨ ∃ i : Fin P.nseg, P.knots i.castSucc < x ∧ x < P.knots i.succ ∧
        ∃ z, P.knots i.castSucc ≤ z ∧ z ≤ P.knots i.succ ∧ |x - z| < (2:ℝ) ^ (1 - (p:ℤ)) * M ∧
          |segFun (P.knots i.castSucc) (P.knots i.succ) (P.coef i ()) z| ≤ B + J) ∧
      (∀ x ∈ grid, (f x).val = 0 → x ∈ r) ∧
      ∀ a b, Adjacent grid a b → ∀ i : Fin P.nseg, P.knots i.castSucc ≤ a → b ≤ P.knots i.succ →
        segFun (P.knots i.castSucc) (P.knots i.succ) (P.coef i ()) a *
          segFun (P.knots i.castSucc) (P.knots i.succ) (P.coef i ()) b < 0 →
        B + J < |segFun (P.knots i.castSucc) (P.knots i.succ) (P.coef i ()) a| →
        B + J < |segFun (P.knots i.castSucc) (P.knots i.succ) (P.coef i ()) b| →
        ∃ x, (x ∈ r ∧ a < x ∧ x < b) ∧ ∀ y, y ∈ r ∧ a ≤ y ∧ y ≤ b → y = x := by
  classical
  have hmono : StrictMono P.knots := Fin.strictMono_iff_lt_succ.2 hP.asc
  -- the segment of a pair of neighbours
  have hseg : ∀ a b, Adjacent grid a b → ∃ i : Fin P.nseg, P.knots i.castSucc ≤ a ∧ b ≤ P.knots i.succ := by
    intro a b hab
    have hl := hab.lt hg.lt
    obtain ⟨i, ⟨h1, h2⟩, -⟩ := C79_call hA hrt hu0 hu he hP hc hn (hin a hab.mem.1).1 (hin a hab.mem.1).2
    refine ⟨i, h1, ?_⟩
    have h3 : a < P.knots i.succ := by
      rcases h2 with h2 | ⟨-, h2⟩
      · exact h2
      · exact absurd (h2 ▸ hl) (not_lt.2 (hin b hab.mem.2).2)
    by_contra hc'
    push Not at hc'
    have hk := hknots i.succ ⟨a, hab.mem.1, h3.le⟩ ⟨b, hab.mem.2, hc'.le⟩
    rcases hab.no_between hg.lt hk with h | h <;> linarith
  haveI : Nonempty (Fin P.nseg) := ⟨⟨0, hP.pos⟩⟩
  choose! seg hseg1 hseg2 using hseg
  have huniq : ∀ a b, Adjacent grid a b → ∀ i : Fin P.nseg, P.knots i.castSucc ≤ a → b ≤ P.knots i.succ → seg a b = i := by
    intro a b hab i h1 h2
    have hl := hab.lt hg.lt
    have h3 : P.knots (seg a b).castSucc < P.knots i.succ := by linarith [hseg1 a b hab]
    have h4 : P.knots i.castSucc < P.knots (seg a b).succ := by linarith [hseg2 a b hab]
    have h5 := hmono.lt_iff_lt.1 h3
    have h6 := hmono.lt_iff_lt.1 h4
    rw [Fin.lt_def] at h5 h6
    simp only [Fin.val_castSucc, Fin.val_succ] at h5 h6
    exact Fin.ext (by omega)
  set g : ℝ → ℝ → ℝ → ℝ := fun a b x =>
    segFun (P.knots (seg a b).castSucc) (P.knots (seg a b).succ) (P.coef (seg a b) ()) x with hgdef
  have hcont : ∀ a b, Adjacent grid a b → ContinuousOn (g a b) (Set.Icc a b) := by
    intro a b _
    refine Continuous.continuousOn ?_
    simp only [hgdef]
    exact segFun_continuous _ _ _
  have herr : ∀ a b, Adjacent grid a b → ∀ x, IsFloat p emin x → a ≤ x → x ≤ b → |(f x).val - g a b x| ≤ B + J := by
    intro a b hab x hx hax hxb
    have hx1 : P.knots 0 ≤ x := (hin a hab.mem.1).1.trans hax
    have hx2 : x ≤ P.knots (Fin.last P.nseg) := hxb.trans (hin b hab.mem.2).2
    obtain ⟨j, ⟨h1, h2⟩, v, hv, -, herr⟩ := C79_call hA hrt hu0 hu he hP hc hn hx1 hx2
    obtain ⟨w, hw, hfw⟩ := hf x hx hx1 hx2
    rw [hv] at hw
    cases hw
    have h3 := (herr ()).trans (hB j)
    rw [hfw]
    set i := seg a b with hi
    have hia : P.knots i.castSucc ≤ a := hseg1 a b hab
    have hib : b ≤ P.knots i.succ := hseg2 a b hab
    have hxs : x ≤ P.knots i.succ := hxb.trans hib
    -- the segment used is this one or, at the right end, the next one
    have hji : (j : ℕ) = i ∨ ((i : ℕ) + 1 = j ∧ x = P.knots i.succ) := by
      have h4 : (j : ℕ) ≤ i + 1 := by
        have := hmono.le_iff_le.1 (h1.trans hxs)
        rw [Fin.le_def] at this
        simpa using this
      have h5 : (i : ℕ) ≤ j := by
        rcases h2 with h2 | ⟨h2, h2'⟩
        · have := hmono.lt_iff_lt.1 ((hia.trans hax).trans_lt h2)
          rw [Fin.lt_def] at this
          simp only [Fin.val_castSucc, Fin.val_succ] at this
          omega
        · have := i.2
          omega
      rcases h4.lt_or_eq with h | h
      · exact Or.inl (by omega)
      · refine Or.inr ⟨h.symm, le_antisymm hxs ?_⟩
        have : i.succ = j.castSucc := Fin.ext (by simp [h])
        rw [this]
        exact h1
    rcases hji with h | ⟨h, hxe⟩
    · have : j = i := Fin.ext h
      subst this
      simp only [hgdef]
      linarith
    · have h6 := hJ i j h
      simp only [hgdef]
      have h7 := abs_sub_le (v ()) (segFun (P.knots j.castSucc) (P.knots j.succ) (P.coef j ()) x)
        (segFun (P.knots i.castSucc) (P.knots i.succ) (P.coef i ()) x)
      rw [abs_sub_comm] at h6
      rw [hxe] at h3 h7 ⊢
      linarith
  obtain ⟨r, h1, h2, h3, h4, h5⟩ := C81_accuracy hr hp hg g (fun _ _ => B + J) hcont herr
  refine ⟨r, h1, h2, ?_, h4, ?_⟩
  · intro x hx
    rcases h3 x hx with h | ⟨a, b, hab, ha, hb, z, hz1, hz2, hz3, hz4⟩
    · exact Or.inl h
    · exact Or.inr ⟨seg a b, (hseg1 a b hab).trans_lt ha, hb.trans_le (hseg2 a b hab), z, (hseg1 a b hab).trans hz1,
        hz2.trans (hseg2 a b hab), hz3, hz4⟩
  · intro a b hab i hi1 hi2 hs ha hb
    have e := huniq a b hab i hi1 hi2
    refine h5 a b hab ?_ ?_ ?_ <;> simp only [hgdef, e] <;> assumption

end

/-- Tiny magnitudes are excluded for a reason: for a function which changes its sign between 0 and the smallest positive
number (`5e-324` in double precision), `find_all` does not terminate, as the tolerance is rounded to zero. -/
theorem C81_tiny {p : ℕ} {emin : ℤ} {rd : ℝ → ℝ} (hr : RoundsToNearest p emin rd) (hp : 3 ≤ p) (f : ℝ → FVal ℝ)
    (hf : (f 0).val * (f ((2:ℝ) ^ emin)).val < 0) :
    findAllContFl rd ((2:ℝ) ^ (1 - (p:ℤ))) f [0, (2:ℝ) ^ emin] = none := by
  have hq : (0:ℝ) < (2:ℝ) ^ emin := by positivity
  have hfq : IsFloat p emin ((2:ℝ) ^ emin) := by
    have := isFloat_of_mul (p := p) (emin := emin) (n := 1) (e := emin) (by omega) (by
      rw [abs_one]; exact one_le_pow₀ (by norm_num)) le_rfl
    simpa using this
  have hmax : absMax [0, (2:ℝ) ^ emin] = (2:ℝ) ^ emin :=
    absMax_eq (by simp [abs_of_pos hq, hq.le]) ⟨_, by simp, abs_of_pos hq⟩
  have hx : rd ((2:ℝ) ^ (1 - (p:ℤ)) * absMax [0, (2:ℝ) ^ emin]) = 0 := by
    rw [hmax]
    obtain ⟨n, hn⟩ := (hr ((2:ℝ) ^ (1 - (p:ℤ)) * (2:ℝ) ^ emin)).1.multiple
    have h1 := (hr ((2:ℝ) ^ (1 - (p:ℤ)) * (2:ℝ) ^ emin)).2 0 isFloat_zero
    rw [hn] at h1 ⊢
    rw [sub_zero, ← sub_mul, abs_mul, abs_mul, abs_of_pos hq] at h1
    have h2 := le_of_mul_le_mul_right h1 hq
    have h3 : (2:ℝ) ^ (1 - (p:ℤ)) ≤ 1 / 4 := by
      have : (2:ℝ) ^ (1 - (p:ℤ)) ≤ (2:ℝ) ^ (-2 : ℤ) := zpow_le_zpow_right₀ (by norm_num) (by omega)
      norm_num at this ⊢
      exact this
    have h4 : (0:ℝ) < (2:ℝ) ^ (1 - (p:ℤ)) := by positivity
    rw [abs_of_pos h4] at h2
    have h5 := abs_le.1 h2
    have h6 : (n : ℝ) < 1 := by linarith [h5.1]
    have h7 : (-1 : ℝ) < n := by linarith [h5.2]
    have h8 : n < 1 := by exact_mod_cast h6
    have h9 : -1 < n := by exact_mod_cast h7
    have : n = 0 := by omega
    rw [this]; simp
  have hdiv : ∀ (st : List (Roots.Bracket ℝ ℝ)) (r : List ℝ), bisectContFl rd f 0 st = some r →
      st ≠ [] → (∀ br ∈ st, br.Inv f ∧ IsFloat p emin br.a ∧ IsFloat p emin br.b) → False := by
    refine bisectContFl.partial_correctness rd f 0 (fun st _ => st ≠ [] →
      (∀ br ∈ st, br.Inv f ∧ IsFloat p emin br.a ∧ IsFloat p emin br.b) → False) ?_
    intro F ih st r h hne hst
    have hstep : ∀ br ∈ st, (br.step f (br.midFl rd)).Inv f ∧ IsFloat p emin (br.step f (br.midFl rd)).a ∧
        IsFloat p emin (br.step f (br.midFl rd)).b := by
      intro br hbr
      obtain ⟨h1, h2, h3⟩ := hst br hbr
      have hm := hr.mid_mem h2 h3 h1.lt.le
      refine ⟨h1.step_weak hm.1 hm.2, ?_⟩
      unfold Bracket.step
      split
      · exact ⟨h2, (hr _).1⟩
      · exact ⟨(hr _).1, h3⟩
    have hnf : (st.map fun br => (br.midFl rd, br.step f (br.midFl rd))).any (fun q => foundFl rd 0 q.2) = false := by
      rw [List.any_eq_false]
      intro q hq'
      rw [List.mem_map] at hq'
      obtain ⟨br, hbr, rfl⟩ := hq'
      simp only [foundFl, decide_eq_true_eq, not_lt]
      exact hr.le_rd isFloat_zero (by linarith [(hstep br hbr).1.lt])
    simp only [hnf, Bool.false_eq_true, if_false] at h
    refine ih _ _ h (by simpa using hne) ?_
    intro br hbr
    rw [List.map_map, List.mem_map] at hbr
    obtain ⟨br', hbr', rfl⟩ := hbr
    exact hstep br' hbr'
  have h0 : (f 0).val ≠ 0 := fun h => by rw [h, zero_mul] at hf; exact lt_irrefl _ hf
  have h1 : (f ((2:ℝ) ^ emin)).val ≠ 0 := fun h => by rw [h, mul_zero] at hf; exact lt_irrefl _ hf
  have hs := (FVal.signbit_ne_iff h0 h1).2 hf
  have hnone : bisectContFl rd f 0 [⟨0, (2:ℝ) ^ emin, f 0, f ((2:ℝ) ^ emin)⟩] = none := by
    cases h : bisectContFl rd f 0 [⟨0, (2:ℝ) ^ emin, f 0, f ((2:ℝ) ^ emin)⟩] with
    | none => rfl
    | some r =>
      exfalso
      refine hdiv _ r h (by simp) ?_
      intro br hbr
      rw [List.mem_singleton] at hbr
      subst hbr
      exact ⟨⟨hq, rfl, rfl, hs⟩, isFloat_zero, hfq⟩
  unfold findAllContFl
  rw [hx]
  unfold findAllWith
  have hb : ((f 0).signbit != (f ((2:ℝ) ^ emin)).signbit) = true := by simpa using hs
  simp only [List.map_cons, List.map_nil, List.tail_cons, List.zip_cons_cons, List.zip_nil_right]
  rw [List.filter_cons_of_pos (by simp [hb, h0, h1])]
  simp only [List.filter_nil, List.isEmpty_cons, Bool.false_eq_true, if_false, List.map_cons, List.map_nil, hnone]
  rfl

/- Non-vacuity: `x ↦ x² - 2` on the grid `0, 1, 2` in double precision; a rounding exists. -/
example : ∃ rd, RoundsToNearest 53 (-1074) rd ∧
    ∃ r : List ℝ, findAllContFl rd ((2:ℝ) ^ (-52 : ℤ)) (fun x : ℝ => FVal.mk' (x ^ 2 - 2)) [0, 1, 2] = some (.ok r) ∧
      ∃ x ∈ r, ∃ z, 1 ≤ z ∧ z ^ 2 = 2 ∧ |x - z| < (2:ℝ) ^ (-51 : ℤ) := by
  obtain ⟨rd, hr⟩ := exists_roundsToNearest 53 (-1074)
  have h0 : IsFloat 53 (-1074) 0 := isFloat_zero
  have h1 : IsFloat 53 (-1074) 1 := ⟨1, 0, by norm_num, by norm_num, by norm_num⟩
  have h2 : IsFloat 53 (-1074) 2 := ⟨2, 0, by norm_num, by norm_num, by norm_num⟩
  have hg : GridOk 53 (-1074) [0, 1, 2] 2 := by
    refine ⟨?_, ?_, ⟨2, by simp, by norm_num⟩, ?_, ?_⟩
    · intro x hx
      simp only [List.mem_cons, List.not_mem_nil, or_false] at hx
      rcases hx with rfl | rfl | rfl <;> assumption
    · intro x hx
      simp only [List.mem_cons, List.not_mem_nil, or_false] at hx
      rcases hx with rfl | rfl | rfl <;> norm_num
    · calc (2:ℝ) ^ ((-1074 : ℤ) + 2 * (53 : ℕ)) ≤ (2:ℝ) ^ (1 : ℤ) := zpow_le_zpow_right₀ (by norm_num) (by norm_num)
        _ = 2 := by norm_num
    · have e : (2:ℝ) ^ (1 - ((53 : ℕ) : ℤ)) * 2 ≤ 1 := by norm_num
      simp only [List.pairwise_cons, List.mem_cons, List.not_mem_nil, or_false]
      norm_num
  obtain ⟨r, hr', -, hs, -, hu⟩ := C81_accuracy (f := fun x : ℝ => FVal.mk' (x ^ 2 - 2)) hr (by norm_num) hg
    (fun _ _ x => x ^ 2 - 2) (fun _ _ => 0) (by intro a b _; fun_prop)
    (by intro a b _ x _ _ _; simp [FVal.mk'])
  refine ⟨rd, hr, r, ?_, ?_⟩
  · rw [← hr']; norm_num
  · obtain ⟨x, ⟨hx, hx1, hx2⟩, -⟩ := hu 1 2 ⟨[0], [], rfl⟩ (by norm_num) (by norm_num) (by norm_num)
    rcases hs x hx with h | ⟨a, b, hab, ha, hb, z, hz1, hz2, hz3, hz4⟩
    · exfalso
      have := h.1
      simp only [List.mem_cons, List.not_mem_nil, or_false] at this
      rcases this with rfl | rfl | rfl <;> linarith
    · have hz0 : z ^ 2 = 2 := by
        have := abs_nonpos_iff.1 hz4
        linarith
      have ha1 : 1 ≤ a := by
        have hm : a ∈ ([0, 1, 2] : List ℝ) := hab.mem.1
        rcases hab.no_between hg.lt (x := 1) (by simp) with h | h
        · exact h
        · linarith
      refine ⟨x, hx, z, by linarith, hz0, ?_⟩
      refine lt_of_lt_of_le hz3 ?_
      norm_num

/-- The function `x` on `[-1, 1]`. -/
noncomputable def exLin : Poly.PPoly Unit := ⟨1, 2, ![-1, 1], fun _ => 2, fun _ _ => [0, 1], fun _ => 0⟩

/-- The hypotheses of `C81_poly` can be met: the function `x` on `[-1, 1]`, evaluated in double precision with any
arithmetic, on the grid `-1, 1`; a point is found. -/
example {A : Kernel.Arith} {rt : ℝ → ℝ} (hA : A.Ok (1 / 10 ^ 16) (1 / 10 ^ 60))
    (hrt : ∀ a, 0 ≤ a → |rt a - Real.sqrt a| ≤ 1 / 10 ^ 16 * Real.sqrt a) {rd : ℝ → ℝ} (hr : RoundsToNearest 53 (-1074) rd) :
    ∃ (P : Poly.PPoly Unit) (f : ℝ → FVal ℝ) (r : List ℝ) (x : ℝ),
      (∀ x, -1 ≤ x → x ≤ 1 → ∃ v, P.callFl A rt x = .ok v ∧ (f x).val = v ()) ∧
      findAllContFl rd ((2:ℝ) ^ (1 - ((53 : ℕ) : ℤ))) f [-1, 1] = some (.ok r) ∧ x ∈ r ∧ -1 < x ∧ x < 1 := by
  set P := exLin with hPdef
  have k1 : P.knots (Fin.last P.nseg) = 1 := rfl
  have k0 : P.knots 0 = -1 := rfl
  have ea : ∀ i : Fin P.nseg, P.knots i.castSucc = -1 := fun i => by
    change Fin 1 at i; fin_cases i; rfl
  have eb : ∀ i : Fin P.nseg, P.knots i.succ = 1 := fun i => by
    change Fin 1 at i; fin_cases i; rfl
  have ec : ∀ i l, P.coef i l = [0, 1] := fun _ _ => rfl
  have ed : ∀ i, P.dx i = 2 := fun _ => rfl
  have hP : KnotsOk P (1 / 10 ^ 16) (1 / 10 ^ 60) := by
    refine ⟨by decide, ?_, ?_, ?_, ?_⟩ <;> intro i <;> rw [ea, eb] <;> norm_num [ed]
  have hc : ∀ i l, P.coef i l ≠ [] := by intro i l; rw [ec]; simp
  have hn : ∀ i l, 400 * ((P.coef i l).length : ℝ) ^ 2 * relSize (P.knots i.castSucc) (P.knots i.succ) * (1 / 10 ^ 16) ≤ 1 := by
    intro i l
    rw [ea, eb, ec]
    norm_num [relSize]
  set f : ℝ → FVal ℝ := fun x => match P.callFl A rt x with
    | .ok v => FVal.mk' (v ())
    | .error _ => FVal.mk' 0 with hfdef
  have hf : ∀ x, -1 ≤ x → x ≤ 1 → ∃ v, P.callFl A rt x = .ok v ∧ (f x).val = v () := by
    intro x h1 h2
    obtain ⟨i, -, v, hv, -⟩ := C79_call hA hrt (by norm_num) (by norm_num) (by norm_num) hP hc hn (x := x)
      (by rw [k0]; exact h1) (by rw [k1]; exact h2)
    refine ⟨v, hv, ?_⟩
    simp only [hfdef, hv, FVal.mk']
  have hg : GridOk 53 (-1074) [-1, 1] 1 := by
    refine ⟨?_, ?_, ⟨1, by simp, by norm_num⟩, ?_, ?_⟩
    · intro x hx
      simp only [List.mem_cons, List.not_mem_nil, or_false] at hx
      rcases hx with rfl | rfl
      · exact ⟨-1, 0, by norm_num, by norm_num, by norm_num⟩
      · exact ⟨1, 0, by norm_num, by norm_num, by norm_num⟩
    · intro x hx
      simp only [List.mem_cons, List.not_mem_nil, or_false] at hx
      rcases hx with rfl | rfl <;> norm_num
    · calc (2:ℝ) ^ ((-1074 : ℤ) + 2 * (53 : ℕ)) ≤ (2:ℝ) ^ (0 : ℤ) := zpow_le_zpow_right₀ (by norm_num) (by norm_num)
        _ = 1 := by norm_num
    · simp only [List.pairwise_cons, List.mem_cons, List.not_mem_nil, or_false]
      norm_num
  have hseg : ∀ x, segFun (-1) 1 [0, 1] x = x := by
    intro x
    unfold segFun legendreSum
    have e : (∑ k : Fin [(0:ℝ), 1].length, [(0:ℝ), 1].get k * (legendre k).eval ((2 * x - (-1 + 1)) / (1 - -1))) =
        0 * (legendre 0).eval ((2 * x - (-1 + 1)) / (1 - -1)) + 1 * (legendre 1).eval ((2 * x - (-1 + 1)) / (1 - -1)) :=
      Fin.sum_univ_two _
    rw [e]
    norm_num [legendre]
  obtain ⟨r, h1, -, -, -, h5⟩ := C81_poly (B := 1 / 10) (J := 0) hA hrt (by norm_num) (by norm_num) (by norm_num) hP hc hn hr
    (by norm_num) hg (f := f)
    (by
      intro x hx
      simp only [List.mem_cons, List.not_mem_nil, or_false] at hx
      rw [k0, k1]
      rcases hx with rfl | rfl <;> norm_num)
    (by
      intro j _ _
      change Fin 2 at j
      fin_cases j
      · change (-1 : ℝ) ∈ [-1, 1]; simp
      · change (1 : ℝ) ∈ [-1, 1]; simp)
    (by
      intro x _ h1 h2
      exact hf x (by rw [k0] at h1; exact h1) (by rw [k1] at h2; exact h2))
    (by
      intro i
      rw [ea, eb, ec]
      norm_num [relSize])
    le_rfl
    (by
      intro i j hij
      exfalso
      have h1 : (j : ℕ) < 1 := j.2
      omega)
  obtain ⟨i⟩ : Nonempty (Fin P.nseg) := ⟨⟨0, hP.pos⟩⟩
  obtain ⟨x, ⟨hx, hx1, hx2⟩, -⟩ := h5 (-1) 1 ⟨[], [], rfl⟩ i (by rw [ea]) (by rw [eb])
    (by rw [ea, eb, ec, hseg, hseg]; norm_num) (by rw [ea, eb, ec, hseg]; norm_num) (by rw [ea, eb, ec, hseg]; norm_num)
  exact ⟨P, f, r, x, hf, h1, hx, hx1, hx2⟩

end Verif.Props
