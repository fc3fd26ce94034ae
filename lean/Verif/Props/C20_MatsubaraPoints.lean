import Verif.Props.C05_DiscreteRoots
import Verif.Props.C08_ExtremaOrder
import Verif.Props.C19_Symmetrize
import Verif.Props.C10_Selection
import Verif.Props.C18_Conjugation
import Verif.Props.C21_Fence
import Verif.Lemmas.DefaultGrid
/-!
# C20 — structure of the default Matsubara sampling points
-/

namespace Verif.Props
open Verif Verif.Np Verif.Poly Verif.Basis Verif.Roots

/-- Strictly increasing integers of the right parity; closed under negation, or all non-negative if
`positive_only`. -/
structure GoodPoints (zeta : ℤ) (positiveOnly : Bool) (wn : List ℤ) : Prop where
  increasing : wn.Pairwise (· < ·)
  parity : ∀ x ∈ wn, x % 2 = zeta
  reflection : positiveOnly = false → ∀ x ∈ wn, -x ∈ wn
  nonneg : positiveOnly = true → ∀ x ∈ wn, 0 ≤ x

theorem toMatsubara_strict {z : ℤ} (hz : z = 0 ∨ z = 1) (po : Bool) {x0 : List ℤ}
    (hs : x0.Pairwise (· < ·)) (hn : ∀ x ∈ x0, 0 ≤ x) :
    ∃ r, toMatsubara z po x0 = .ok r ∧ GoodPoints z po r := by
  have h1 : (x0.map fun x => 2 * x + z).Pairwise (· < ·) := by
    rw [List.pairwise_map]; exact hs.imp (by intro a b h; omega)
  have h2 : ∀ y ∈ x0.map (fun x => 2 * x + z), 0 ≤ y := by
    intro y hy
    obtain ⟨x, hx, rfl⟩ := List.mem_map.1 hy
    have := hn x hx; omega
  have h3 : ∀ y ∈ x0.map (fun x => 2 * x + z), y % 2 = z := by
    intro y hy
    obtain ⟨x, hx, rfl⟩ := List.mem_map.1 hy
    omega
  unfold toMatsubara
  cases po with
  | true => exact ⟨_, rfl, h1, h3, by simp, fun _ => h2⟩
  | false =>
    obtain ⟨r, hr, hr1, hr2, hr3, -⟩ := C19_strict _ h1 h2
    refine ⟨r, by simpa using hr, hr1, ?_, fun _ => hr3, by simp⟩
    intro x hx
    rcases (hr2 x).1 hx with h | h
    · exact h3 x h
    · have := h3 _ h; omega

theorem discr_roots_nonneg (F : ℤ → FVal ℝ) : ∃ r, findAllDiscr F defaultGrid = some (.ok r) ∧
    r.Pairwise (· < ·) ∧ ∀ x ∈ r, 0 ≤ x := by
  obtain ⟨r, hr, hsp⟩ := C05_find_all_discrete F defaultGrid defaultGrid_sorted
  refine ⟨r, hr, hsp.sorted, ?_⟩
  intro x hx
  rcases hsp.sound x hx with ⟨h, -⟩ | ⟨a, b, h1, -, h2, -⟩
  · exact defaultGrid_nonneg x h
  · obtain ⟨l1, l2, h⟩ := h1
    have := defaultGrid_nonneg a (by rw [h]; simp)
    omega

/-- Selecting a function from a transform with asymptotic model. -/
theorem select_ok {ι : Type _} (uhat : PFT ι) (hmin : uhat.poly.xmin = -1) (hmax : uhat.poly.xmax = 1)
    (m : List (ι → ℝ)) (hm : uhat.model = some m) (l : ι) :
    ∃ g, uhat.select (fun _ => 0) (fun _ : Unit => l) = .ok g ∧ g.freq = uhat.freq ∧
      g.poly.symm () = uhat.poly.symm l := by
  refine ⟨⟨uhat.poly.select fun _ => l, uhat.freq, uhat.nAsymp, some (m.map fun v _ => v l)⟩, ?_,
    rfl, rfl⟩
  · unfold PFT.select
    simp only
    rw [if_neg (show ¬ ((uhat.poly.select fun _ : Unit => l).xmin ≠ -1 ∨
      (uhat.poly.select fun _ : Unit => l).xmax ≠ 1) by push Not; exact ⟨hmin, hmax⟩), hm]

variable {size : ℕ}

/-- Specification: the remainder modulo two of the frequencies of a transform. -/
def FreqOffset (freq : Freq) (z : ℤ) : Prop := (freq = .even ∧ z = 0) ∨ (freq = .odd ∧ z = 1)

theorem FreqOffset.zeta {freq : Freq} {z : ℤ} (h : FreqOffset freq z) : freq.zeta = some z := by
  rcases h with ⟨rfl, rfl⟩ | ⟨rfl, rfl⟩ <;> rfl

/-- Specification: the number of points asked for is the smallest even (fermions) or odd (bosons)
number which is at least `L`. -/
structure Requested (freq : Freq) (L r : ℕ) : Prop where
  atLeast : L ≤ r
  least : r ≤ L + 1
  odd : freq = .odd → r % 2 = 0
  even : freq = .even → r % 2 = 1

theorem Requested.eq {freq : Freq} {L r : ℕ} (h : Requested freq L r) {z : ℤ}
    (hoff : FreqOffset freq z) : r = lRequested freq L := by
  have h1 := h.atLeast
  have h2 := h.least
  rcases hoff with ⟨rfl, rfl⟩ | ⟨rfl, rfl⟩
  · have h3 := h.even rfl
    simp only [lRequested, reduceCtorEq, false_and, if_false, true_and]
    split <;> omega
  · have h3 := h.odd rfl
    simp only [lRequested, reduceCtorEq, false_and, if_false, true_and]
    split <;> omega

/-- Specification: how many points are expected if `r` are asked for; with `positive_only` the
non-negative half of a symmetric set of `r` points. -/
def Expected (r : ℕ) (positiveOnly : Bool) (e : ℕ) : Prop :=
  (positiveOnly = false ∧ e = r) ∨ (positiveOnly = true ∧ (2 * e = r ∨ 2 * e = r + 1))

theorem Expected.eq {r : ℕ} {po : Bool} {e : ℕ} (h : Expected r po e) : e = expectedSize r po := by
  rcases h with ⟨rfl, rfl⟩ | ⟨rfl, h⟩
  · rfl
  · simp only [expectedSize, if_true]; omega

/-- Regular branch (the basis is larger than the requested number of points): for every transform
and every function values, the search succeeds, the points have the right structure, and a warning
is issued exactly if their number is not the expected one. -/
theorem C20_sign_changes (uhat : PFT (Fin size)) (F : Fin size → ℤ → FVal ℝ) (L : ℕ) (po : Bool)
    (hmin : uhat.poly.xmin = -1) (hmax : uhat.poly.xmax = 1) (m : List (Fin size → ℝ))
    (hm : uhat.model = some m) (z : ℤ) (hoff : FreqOffset uhat.freq z)
    (r : ℕ) (hreq : Requested uhat.freq L r) (e : ℕ) (hexp : Expected r po e) (hl : r < size)
    (hsym : ∀ l, uhat.poly.symm l = 1 ∨ uhat.poly.symm l = -1) :
    ∃ wn w, defaultMatsubara uhat F L false po = some (.ok (wn, w)) ∧ GoodPoints z po wn ∧
      (w = true ↔ wn.length ≠ e) := by
  have hz := hoff.zeta
  obtain rfl := hexp.eq
  obtain rfl := hreq.eq hoff
  obtain ⟨g, hg, hgf, hgs⟩ := select_ok uhat hmin hmax m hm ⟨_, hl⟩
  obtain ⟨r, hr, hr1, hr2⟩ := discr_roots_nonneg (F ⟨_, hl⟩)
  have hz01 : z = 0 ∨ z = 1 := by
    cases hf : uhat.freq <;> rw [hf] at hz <;> simp [Freq.zeta] at hz <;> omega
  obtain ⟨wn, hwn, hgood⟩ := toMatsubara_strict hz01 po hr1 hr2
  obtain ⟨pt, hpt⟩ : ∃ pt, partFor (g.poly.symm ()) g.freq.zeta .none = .ok pt := by
    rw [hgs]
    have c1 : isClose 1 1 := by norm_num [isClose]
    have c2 : ¬ isClose (-1) 1 := by norm_num [isClose, abs_of_pos]
    have c3 : isClose (-1) (-1) := by norm_num [isClose]
    rcases hsym ⟨_, hl⟩ with h | h <;> rw [h]
    · exact ⟨_, by simp only [partFor, c1, if_true]; rfl⟩
    · exact ⟨_, by simp only [partFor, c2, c3, if_true, if_false]; rfl⟩
  refine ⟨wn, decide (wn.length ≠ expectedSize (lRequested uhat.freq L) po), ?_, hgood, by simp⟩
  unfold defaultMatsubara
  simp only [dif_pos hl, hg]
  have hsc : g.signChanges (F ⟨_, hl⟩) .none defaultGrid po = some (.ok wn) := by
    unfold PFT.signChanges
    rw [hpt]
    simp only
    rw [hgf, hz]
    simp only
    rw [hr]
    simp only
    rw [hwn]
  rw [hsc]
  simp

/-! ### Fall-back branch -/

theorem extrema_nonneg (F : ℤ → FVal ℝ) : ∃ x0, discreteExtrema F defaultGrid = .ok x0 ∧
    ∀ x ∈ x0, 0 ≤ x := by
  have hlen := defaultGrid_length
  obtain ⟨a, b, m, h1⟩ : ∃ a b m, defaultGrid = a :: b :: m := by
    match h : defaultGrid with
    | [] => rw [h] at hlen; simp at hlen
    | [_] => rw [h] at hlen; simp at hlen
    | a :: b :: m => exact ⟨a, b, m, rfl⟩
  obtain ⟨y0, y1, m', h2⟩ : ∃ y0 y1 m', defaultGrid = m' ++ [y1, y0] := by
    match h : defaultGrid.reverse with
    | [] => have := congrArg List.length h; simp [hlen] at this
    | [_] => have := congrArg List.length h; simp [hlen] at this
    | y0 :: y1 :: m' => exact ⟨y0, y1, m'.reverse, by
        have := congrArg List.reverse h; simpa using this⟩
  refine ⟨_, extrema_eq F defaultGrid a b y0 y1 m m' h1 h2, ?_⟩
  have hs := defaultGrid_sorted
  have hnn := defaultGrid_nonneg
  intro x hx
  simp only [List.mem_append] at hx
  rcases hx with (hx | hx) | hx
  · split at hx
    · rw [List.mem_singleton] at hx; rw [hx]; exact hnn a (by rw [h1]; simp)
    · simp at hx
  · rw [h1] at hx hs
    have := (interior_bounds F _ a hs x hx).1
    have := hnn a (by rw [h1]; simp)
    omega
  · split at hx
    · rw [List.mem_singleton] at hx; rw [hx]; exact hnn y0 (by rw [h2]; simp)
    · simp at hx

/-- The points returned by `extrema` before zero is added, if any are returned. -/
theorem toMatsubara_weak {z : ℤ} (hz : z = 0 ∨ z = 1) (po : Bool) {x0 wn : List ℤ}
    (hn : ∀ x ∈ x0, 0 ≤ x) (h : toMatsubara z po x0 = .ok wn) :
    (∀ x ∈ wn, x % 2 = z) ∧ (po = false → (∀ x ∈ wn, -x ∈ wn) ∧ wn.Pairwise (· ≤ ·)) ∧
      (po = true → ∀ x ∈ wn, 0 ≤ x) := by
  have h2 : ∀ y ∈ x0.map (fun x => 2 * x + z), 0 ≤ y := by
    intro y hy
    obtain ⟨x, hx, rfl⟩ := List.mem_map.1 hy
    have := hn x hx; omega
  have h3 : ∀ y ∈ x0.map (fun x => 2 * x + z), y % 2 = z := by
    intro y hy
    obtain ⟨x, hx, rfl⟩ := List.mem_map.1 hy
    omega
  unfold toMatsubara at h
  cases po with
  | true =>
    obtain rfl := Except.ok.inj h
    exact ⟨h3, by simp, fun _ => h2⟩
  | false =>
    simp only [Bool.false_eq_true, if_false] at h
    by_cases hs : (x0.map fun x => 2 * x + z).Pairwise (· ≤ ·)
    · obtain ⟨r, hr, hsym⟩ := symm_result hs h2
      obtain rfl := Except.ok.inj (hr.symm.trans h)
      have hneg : ∀ x ∈ r, -x ∈ r := by
        intro x hx
        rw [← hsym.mirror]
        simpa using hx
      refine ⟨?_, fun _ => ⟨hneg, hsym.ascending⟩, by simp⟩
      intro x hx
      rcases lt_trichotomy 0 x with h0 | h0 | h0
      · have : x ∈ r.filter (0 < ·) := by simp [hx, h0]
        rw [hsym.positive] at this
        exact h3 x (List.mem_filter.1 this).1
      · -- zero only occurs if it was in the input
        subst h0
        by_contra hc
        have hz1 : z = 1 := by omega
        have hc0 : (x0.map fun x => 2 * x + z).count 0 = 0 := List.count_eq_zero.2 fun hm => by
          have := h3 0 hm; omega
        have := hsym.zero (by omega)
        rw [hc0] at this
        exact List.count_eq_zero.1 this hx
      · have : -x ∈ r.filter (0 < ·) := by simp [hneg x hx, h0]
        rw [hsym.positive] at this
        have := h3 _ (List.mem_filter.1 this).1
        omega
    · rw [(C19_symmetrize _).2 (fun h => hs h.1)] at h
      cases h

/-- The outcome of the fall-back branch in terms of the extrema found. -/
theorem fallback_eq (uhat : PFT (Fin size)) (F : Fin size → ℤ → FVal ℝ) (L : ℕ) (po : Bool)
    (hmin : uhat.poly.xmin = -1) (hmax : uhat.poly.xmax = 1) (m : List (Fin size → ℝ))
    (hm : uhat.model = some m) (z : ℤ) (hz : uhat.freq.zeta = some z)
    (hl : size ≤ lRequested uhat.freq L) (hsize : 0 < size)
    (hsym : ∀ l, uhat.poly.symm l = 1 ∨ uhat.poly.symm l = -1) :
    ∃ x0, discreteExtrema (F ⟨size - 1, by omega⟩) defaultGrid = .ok x0 ∧ (∀ x ∈ x0, 0 ≤ x) ∧
      defaultMatsubara uhat F L false po =
        some (match toMatsubara z po x0 with
          | .error e => .error e
          | .ok wn => match addZero wn with
            | .error e => .error e
            | .ok wn => .ok (wn, decide (wn.length ≠ expectedSize (lRequested uhat.freq L) po))) := by
  obtain ⟨g, hg, hgf, hgs⟩ := select_ok uhat hmin hmax m hm ⟨size - 1, by omega⟩
  obtain ⟨pt, hpt⟩ : ∃ pt, partFor (g.poly.symm ()) g.freq.zeta .none = .ok pt := by
    rw [hgs]
    have c1 : isClose 1 1 := by norm_num [isClose]
    have c2 : ¬ isClose (-1) 1 := by norm_num [isClose, abs_of_pos]
    have c3 : isClose (-1) (-1) := by norm_num [isClose]
    rcases hsym ⟨size - 1, by omega⟩ with h | h <;> rw [h]
    · exact ⟨_, by simp only [partFor, c1, if_true]; rfl⟩
    · exact ⟨_, by simp only [partFor, c2, c3, if_true, if_false]; rfl⟩
  obtain ⟨x0, hx0, hnn⟩ := extrema_nonneg (F ⟨size - 1, by omega⟩)
  refine ⟨x0, hx0, hnn, ?_⟩
  unfold defaultMatsubara
  simp only [dif_neg (not_lt.2 hl), dif_pos hsize, hg]
  have hext : g.extrema (F ⟨size - 1, by omega⟩) .none defaultGrid po = toMatsubara z po x0 := by
    unfold PFT.extrema
    rw [hpt]
    simp only
    rw [hgf, hz]
    simp only
    rw [hx0]
  rw [hext]
  cases toMatsubara z po x0 with
  | error e => rfl
  | ok wn =>
    simp only
    cases addZero wn with
    | error e => rfl
    | ok wn => simp

/-- Fall-back branch, bosons: whatever is returned has the right structure and includes zero; a
warning is issued exactly if the number of points is not the expected one. -/
theorem C20_bosonic_fallback (uhat : PFT (Fin size)) (F : Fin size → ℤ → FVal ℝ) (L : ℕ) (po : Bool)
    (hmin : uhat.poly.xmin = -1) (hmax : uhat.poly.xmax = 1) (m : List (Fin size → ℝ))
    (hm : uhat.model = some m) (hf : uhat.freq = .even) (r : ℕ) (hreq : Requested uhat.freq L r)
    (e : ℕ) (hexp : Expected r po e) (hl : size ≤ r) (hsize : 0 < size)
    (hsym : ∀ l, uhat.poly.symm l = 1 ∨ uhat.poly.symm l = -1) (wn : List ℤ) (w : Bool)
    (hok : defaultMatsubara uhat F L false po = some (.ok (wn, w))) :
    GoodPoints 0 po wn ∧ 0 ∈ wn ∧ (w = true ↔ wn.length ≠ e) := by
  obtain rfl := hexp.eq
  obtain rfl := hreq.eq (Or.inl ⟨hf, rfl⟩)
  obtain ⟨x0, hx0, hnn, heq⟩ := fallback_eq uhat F L po hmin hmax m hm 0 (by rw [hf]; rfl) hl hsize hsym
  rw [heq] at hok
  have hok := Option.some.inj hok
  split at hok
  · cases hok
  rename_i wn1 h1
  split at hok
  · cases hok
  rename_i wn2 h2
  have hok := Except.ok.inj hok
  rw [Prod.mk.injEq] at hok
  obtain ⟨rfl, rfl⟩ := hok
  obtain ⟨a1, a2, a3⟩ := toMatsubara_weak (Or.inl rfl) po hnn h1
  unfold addZero at h2
  match wn1, h2, a1, a2, a3 with
  | w0 :: rest, h2, a1, a2, a3 =>
    simp only at h2
    rw [if_pos (a1 w0 (by simp))] at h2
    obtain rfl := Except.ok.inj h2
    refine ⟨⟨npUnique_sorted _, ?_, ?_, ?_⟩, by rw [mem_npUnique]; simp, by simp⟩
    · intro x hx
      rw [mem_npUnique, List.mem_cons] at hx
      rcases hx with rfl | hx
      · rfl
      · exact a1 x hx
    · intro hpo x hx
      rw [mem_npUnique, List.mem_cons] at *
      rcases hx with rfl | hx
      · left; rfl
      · right; exact (a2 hpo).1 x hx
    · intro hpo x hx
      rw [mem_npUnique, List.mem_cons] at hx
      rcases hx with rfl | hx
      · rfl
      · exact a3 hpo x hx

/-- Fall-back branch, fermions.  Proved: parity, reflection symmetry (non-negativity), ascending
order, warning; strictly ascending if neighbouring secant changes are separated (C08).  Missing
(false): strictness in general, see `C20_fallback_repeats`. -/
theorem C20_fermionic_fallback_partial (uhat : PFT (Fin size)) (F : Fin size → ℤ → FVal ℝ) (L : ℕ)
    (po : Bool) (hmin : uhat.poly.xmin = -1) (hmax : uhat.poly.xmax = 1) (m : List (Fin size → ℝ))
    (hm : uhat.model = some m) (hf : uhat.freq = .odd) (r : ℕ) (hreq : Requested uhat.freq L r)
    (e : ℕ) (hexp : Expected r po e) (hl : size ≤ r) (hsize : 0 < size)
    (hsym : ∀ l, uhat.poly.symm l = 1 ∨ uhat.poly.symm l = -1) (wn : List ℤ) (w : Bool)
    (hok : defaultMatsubara uhat F L false po = some (.ok (wn, w))) :
    (∀ x ∈ wn, x % 2 = 1) ∧ (po = false → NegClosed wn ∧ wn.Pairwise (· ≤ ·)) ∧
      (po = true → ∀ x ∈ wn, 0 ≤ x) ∧
      (w = true ↔ wn.length ≠ e) ∧
      (SeparatedChanges (F ⟨size - 1, by omega⟩) defaultGrid → GoodPoints 1 po wn) := by
  obtain rfl := hexp.eq
  obtain rfl := hreq.eq (Or.inr ⟨hf, rfl⟩)
  obtain ⟨x0, hx0, hnn, heq⟩ := fallback_eq uhat F L po hmin hmax m hm 1 (by rw [hf]; rfl) hl hsize hsym
  rw [heq] at hok
  have hok := Option.some.inj hok
  split at hok
  · cases hok
  rename_i wn1 h1
  split at hok
  · cases hok
  rename_i wn2 h2
  have hok := Except.ok.inj hok
  rw [Prod.mk.injEq] at hok
  obtain ⟨rfl, rfl⟩ := hok
  obtain ⟨a1, a2, a3⟩ := toMatsubara_weak (Or.inr rfl) po hnn h1
  have h12 : wn1 = wn2 := by
    unfold addZero at h2
    match wn1, h2, a1 with
    | w0 :: rest, h2, a1 =>
      simp only at h2
      rw [if_neg (by have := a1 w0 (by simp); omega)] at h2
      exact Except.ok.inj h2
  subst h12
  refine ⟨a1, a2, a3, by simp, ?_⟩
  intro hsep
  obtain ⟨r, hr, hrs⟩ := C08_ascending_partial _ _ defaultGrid_sorted (by rw [defaultGrid_length]; omega) hsep
  obtain rfl := Except.ok.inj (hr.symm.trans hx0)
  obtain ⟨r', hr', hg⟩ := toMatsubara_strict (Or.inr rfl) po hrs hnn
  obtain rfl := Except.ok.inj (hr'.symm.trans h1)
  exact hg

/-- The fall-back fails with IndexError exactly if no extremum is found, and with ValueError exactly
if the extrema found are not in ascending order (and have to be symmetrised). -/
theorem C20_fallback_errors (uhat : PFT (Fin size)) (F : Fin size → ℤ → FVal ℝ) (L : ℕ) (po : Bool)
    (hmin : uhat.poly.xmin = -1) (hmax : uhat.poly.xmax = 1) (m : List (Fin size → ℝ))
    (hm : uhat.model = some m) (z : ℤ) (hoff : FreqOffset uhat.freq z) (r : ℕ)
    (hreq : Requested uhat.freq L r) (hl : size ≤ r) (hsize : 0 < size)
    (hsym : ∀ l, uhat.poly.symm l = 1 ∨ uhat.poly.symm l = -1) :
    ∃ x0, discreteExtrema (F ⟨size - 1, by omega⟩) defaultGrid = .ok x0 ∧
      (defaultMatsubara uhat F L false po = some (.error .indexError) ↔ x0 = []) ∧
      (defaultMatsubara uhat F L false po = some (.error .valueError) ↔
        po = false ∧ ¬ x0.Pairwise (· ≤ ·)) ∧
      (x0 ≠ [] → (po = true ∨ x0.Pairwise (· ≤ ·)) →
        ∃ r, defaultMatsubara uhat F L false po = some (.ok r)) := by
  have hz := hoff.zeta
  obtain rfl := hreq.eq hoff
  obtain ⟨x0, hx0, hnn, heq⟩ := fallback_eq uhat F L po hmin hmax m hm z hz hl hsize hsym
  refine ⟨x0, hx0, ?_⟩
  have hz01 : z = 0 ∨ z = 1 := by
    cases hf : uhat.freq <;> rw [hf] at hz <;> simp [Freq.zeta] at hz <;> omega
  have hadd : ∀ wn : List ℤ, wn ≠ [] → ∃ r, addZero wn = .ok r := by
    intro wn hw
    match wn, hw with
    | w0 :: rest, _ => unfold addZero; simp only; split <;> exact ⟨_, rfl⟩
  have h2 : ∀ y ∈ x0.map (fun x => 2 * x + z), 0 ≤ y := by
    intro y hy
    obtain ⟨x, hx, rfl⟩ := List.mem_map.1 hy
    have := hnn x hx; omega
  have hmono : (x0.map fun x => 2 * x + z).Pairwise (· ≤ ·) ↔ x0.Pairwise (· ≤ ·) := by
    rw [List.pairwise_map]
    exact ⟨fun h => h.imp (by intro a b h; omega), fun h => h.imp (by intro a b h; omega)⟩
  by_cases hnil : x0 = []
  · have hd : defaultMatsubara uhat F L false po = some (.error .indexError) := by
      rw [heq, hnil]
      unfold toMatsubara
      cases po <;> rfl
    rw [hd]
    refine ⟨by simp [hnil], ?_, fun h => absurd hnil h⟩
    simp [hnil]
  · by_cases hgo : po = true ∨ x0.Pairwise (· ≤ ·)
    · obtain ⟨wn, hwn, hne⟩ : ∃ wn, toMatsubara z po x0 = .ok wn ∧ wn ≠ [] := by
        unfold toMatsubara
        cases po with
        | true => exact ⟨_, rfl, by simpa using hnil⟩
        | false =>
          have hp : x0.Pairwise (· ≤ ·) := hgo.resolve_left (by simp)
          obtain ⟨r, hr, hsy⟩ := symm_result (hmono.2 hp) h2
          refine ⟨r, by simpa using hr, ?_⟩
          rintro rfl
          unfold symmetrizeMatsubara at hr
          match x0, hnil with
          | a :: l, _ =>
            simp only [List.map_cons] at hr
            split at hr
            · split at hr
              · split at hr <;> simp at hr
              · cases hr
            · cases hr
      obtain ⟨r, hr⟩ := hadd wn hne
      have hd : defaultMatsubara uhat F L false po = some (.ok (r,
          decide (r.length ≠ expectedSize (lRequested uhat.freq L) po))) := by
        rw [heq, hwn]
        simp only
        rw [hr]
      rw [hd]
      refine ⟨by simp [hnil], ?_, fun _ _ => ⟨_, rfl⟩⟩
      simp only [Option.some.injEq, reduceCtorEq, false_iff, not_and, not_not]
      intro hpo
      exact hgo.resolve_left (by simp [hpo])
    · push Not at hgo
      have hpo : po = false := by simpa using hgo.1
      have hd : defaultMatsubara uhat F L false po = some (.error .valueError) := by
        rw [heq, hpo]
        unfold toMatsubara
        simp only [Bool.false_eq_true, if_false]
        rw [(C19_symmetrize _).2 (fun h => hgo.2 (hmono.1 h.1))]
      rw [hd]
      refine ⟨by simp [hnil], by simp [hpo, hgo.2], ?_⟩
      intro _ h
      rcases h with h | h
      · simp [hpo] at h
      · exact absurd h hgo.2

/-- With `fence=True` the same points and warning are computed first, then fenced: the result is
strictly increasing, of the same parity, contains all the points, stays non-negative if they were, and
stays closed under negation unless there were 20 to 39 of them (C21). -/
theorem C20_fenced (uhat : PFT (Fin size)) (F : Fin size → ℤ → FVal ℝ) (L : ℕ) (po : Bool) (z : ℤ)
    (wn : List ℤ) (w : Bool) (hok : defaultMatsubara uhat F L false po = some (.ok (wn, w)))
    (hgood : GoodPoints z po wn) (hne : wn ≠ []) :
    ∃ r, defaultMatsubara uhat F L true po = some (.ok (r, w)) ∧ (∀ x ∈ wn, x ∈ r) ∧
      r.Pairwise (· < ·) ∧ (∀ x ∈ r, x % 2 = z) ∧ (po = true → ∀ x ∈ r, 0 ≤ x) ∧
      (po = false → wn.length < 20 ∨ 40 ≤ wn.length → ∀ x ∈ r, -x ∈ r) := by
  obtain ⟨r, hr, h1, h2, h3, h4⟩ := C21_fence wn hne po
  refine ⟨r, ?_, h1, h2, h3 z hgood.parity, fun hpo => h4 (hgood.nonneg hpo), ?_⟩
  · unfold defaultMatsubara at hok ⊢
    simp only at hok ⊢
    revert hok
    split
    · intro h; cases h
    · intro h; cases h
    · rename_i wn' _
      intro h
      simp only [Bool.false_eq_true, if_false, Option.some.injEq, Except.ok.injEq, Prod.mk.injEq] at h
      obtain ⟨rfl, rfl⟩ := h
      simp only [if_true]
      rw [hr]
  · intro hpo hlen
    subst hpo
    obtain ⟨r', hr', hc⟩ := C21_symmetric_partial wn hgood.increasing (hgood.reflection rfl) hne hlen
    obtain rfl := Except.ok.inj (hr.symm.trans hr')
    exact hc

/-! ### Witnesses: function values on the default grid -/

/-- The forward differences along a list are not negative. -/
def Rising (F : ℤ → FVal ℝ) (l : List ℤ) : Prop := l.IsChain fun a b => ((F b).sub (F a)).signbit = false

theorem interior_rising (F : ℤ → FVal ℝ) : ∀ l, Rising F l → interiorExtrema F l = []
  | [], _ => interior_short F [] (by simp)
  | [_], _ => interior_short F _ (by simp)
  | [_, _], _ => interior_short F _ (by simp)
  | x :: y :: z :: l, h => by
    unfold Rising at h
    rw [List.isChain_cons_cons, List.isChain_cons_cons] at h
    rw [interior_cons, if_neg (by simp [h.1, h.2.1])]
    exact interior_rising F (y :: z :: l) (by
      unfold Rising; rw [List.isChain_cons_cons]; exact h.2)

theorem interior_prefix (F : ℤ → FVal ℝ) (a b : ℤ) (l2 : List ℤ) : ∀ l1, Rising F (l1 ++ [a, b]) →
    interiorExtrema F (l1 ++ a :: b :: l2) = interiorExtrema F (a :: b :: l2)
  | [], _ => rfl
  | [x], h => by
    unfold Rising at h
    simp only [List.cons_append, List.nil_append] at h ⊢
    rw [List.isChain_cons_cons, List.isChain_cons_cons] at h
    rw [interior_cons, if_neg (by simp [h.1, h.2.1])]
  | x :: y :: l1, h => by
    have h' : Rising F ((y :: l1) ++ [a, b]) := by
      unfold Rising at h ⊢
      exact List.IsChain.tail h
    rw [← interior_prefix F a b l2 (y :: l1) h']
    unfold Rising at h
    match l1, h with
    | [], h =>
      simp only [List.cons_append, List.nil_append] at h ⊢
      rw [List.isChain_cons_cons, List.isChain_cons_cons] at h
      rw [interior_cons, if_neg (by simp [h.1, h.2.1])]
    | z :: l1, h =>
      simp only [List.cons_append] at h ⊢
      rw [List.isChain_cons_cons, List.isChain_cons_cons] at h
      rw [interior_cons, if_neg (by simp [h.1, h.2.1])]

theorem rising_of_mono (f : ℤ → ℝ) (l : List ℤ) (hl : l.Pairwise (· < ·))
    (h : ∀ a ∈ l, ∀ b ∈ l, a < b → f a ≤ f b) : Rising (fun n => FVal.mk' (f n)) l := by
  unfold Rising
  induction l with
  | nil => exact List.IsChain.nil
  | cons x l ih =>
    cases l with
    | nil => exact List.IsChain.singleton _
    | cons y l =>
      rw [List.isChain_cons_cons]
      refine ⟨?_, ih (List.pairwise_cons.1 hl).2 fun a ha b hb =>
        h a (List.mem_cons_of_mem _ ha) b (List.mem_cons_of_mem _ hb)⟩
      have := h x (by simp) y (by simp) ((List.pairwise_cons.1 hl).1 y (by simp))
      simp only [FVal.sub, FVal.mk', FVal.signbit, Bool.or_eq_false_iff, decide_eq_false_iff_not,
        Bool.and_eq_false_iff]
      refine ⟨decide_eq_false (not_lt.2 (by linarith)), ?_⟩
      by_cases h0 : f y = 0
      · left; right; simp [h0]
      · left; left; left; simp [h0]

/-- The default grid around its points number `64+k+1` to `64+k+4`. -/
theorem range_split (k : ℕ) (hk : k ≤ 300) (f : ℕ → ℤ) (N : ℕ) (hN : N = k + 4 + (301 - k)) :
    (List.range N).map f = (List.range k).map f ++
      f k :: f (k + 1) :: f (k + 2) :: f (k + 3) ::
        (List.range (301 - k)).map fun i => f (k + 4 + i) := by
  subst hN
  generalize 301 - k = r
  rw [List.range_add, List.map_append, List.range_succ, List.range_succ, List.range_succ,
    List.range_succ]
  simp [Function.comp_def]

theorem grid_split (k : ℕ) (hk : k ≤ 300) : defaultGrid =
    ((List.range 64).map (fun n : ℕ => (n : ℤ)) ++ (List.range k).map gridFloor) ++
      gridFloor k :: gridFloor (k + 1) :: gridFloor (k + 2) :: gridFloor (k + 3) ::
        (List.range (301 - k)).map fun i => gridFloor (k + 4 + i) := by
  have h := range_split k hk gridFloor 305 (by omega)
  rw [defaultGrid_eq]
  generalize (List.range 305).map gridFloor = N at h ⊢
  have h2 := congrArg (fun l => (List.range 64).map (fun n : ℕ => (n : ℤ)) ++ l) h
  simp only [← List.append_assoc] at h2
  exact h2

theorem last_two : ∃ m', defaultGrid = m' ++ [gridFloor 303, gridFloor 304] := by
  refine ⟨(List.range 64).map (fun n : ℕ => (n : ℤ)) ++ (List.range 303).map gridFloor, ?_⟩
  have h : ∀ N : ℕ, (List.range (N + 2)).map gridFloor =
      (List.range N).map gridFloor ++ [gridFloor N, gridFloor (N + 1)] := by
    intro N
    rw [List.range_succ, List.range_succ]; simp
  rw [defaultGrid_eq, List.append_assoc, h 303]

theorem first_two : ∃ m, defaultGrid = 0 :: 1 :: m := by
  rw [defaultGrid_eq]
  exact ⟨_, rfl⟩

/-- A function that is zero up to the grid point number `k` (exclusive), constant after grid point
`k+2`, and has one maximum and one minimum in between. -/
theorem bump_extrema (f : ℤ → ℝ) (k : ℕ) (hk : k ≤ 300)
    (h0 : ∀ n, 0 ≤ n → n < gridFloor k → f n = 0) (hpos : ∀ n, 0 ≤ f n)
    (c : ℝ) (hc : ∀ n, gridFloor (k + 3) ≤ n → f n = c)
    (ha : f (gridFloor k) ≤ f (gridFloor (k + 1))) (hb : f (gridFloor (k + 2)) < f (gridFloor (k + 1)))
    (hd : f (gridFloor (k + 2)) ≤ c) (e1 e2 : ℤ)
    (he1 : bisectDiscrExtremum f (gridFloor k) (gridFloor (k + 2)) (f (gridFloor k))
      (f (gridFloor (k + 2))) = e1)
    (he2 : bisectDiscrExtremum f (gridFloor (k + 1)) (gridFloor (k + 3)) (f (gridFloor (k + 1))) c
      = e2) :
    discreteExtrema (fun n => FVal.mk' (f n)) defaultGrid = .ok [e1, e2] := by
  obtain ⟨m', hm'⟩ := last_two
  obtain ⟨m, hm⟩ := first_two
  have hs := defaultGrid_sorted
  have habs : (fun n : ℤ => (FVal.mk' (f n)).abs) = f := by
    funext n; simp [FVal.abs, FVal.mk', abs_of_nonneg (hpos n)]
  have habs' : ∀ n : ℤ, (FVal.mk' (f n)).abs = f n := fun n => congrFun habs n
  have hk64 := gridFloor_ge k
  have hsplit := grid_split k hk
  set G := fun n => FVal.mk' (f n) with hG
  have hint : interiorExtrema G defaultGrid = [e1, e2] := by
    rw [hsplit, interior_prefix]
    · have sgn1 : ((G (gridFloor (k + 1))).sub (G (gridFloor k))).signbit = false := by
        simp only [hG, FVal.sub, FVal.mk', FVal.signbit, Bool.or_eq_false_iff, decide_eq_false_iff_not,
          Bool.and_eq_false_iff]
        have := hpos (gridFloor (k + 2))
        exact ⟨by linarith, Or.inl (Or.inl (Or.inl (by linarith)))⟩
      have sgn2 : ((G (gridFloor (k + 2))).sub (G (gridFloor (k + 1)))).signbit = true := by
        apply FVal.neg_of_lt; simp only [hG, FVal.sub, FVal.mk']; linarith
      have sgn3 : ((G (gridFloor (k + 3))).sub (G (gridFloor (k + 2)))).signbit = false := by
        have hc3 := hc _ (le_refl (gridFloor (k + 3)))
        simp only [hG, FVal.sub, FVal.mk', FVal.signbit, Bool.or_eq_false_iff, decide_eq_false_iff_not,
          Bool.and_eq_false_iff, hc3]
        refine ⟨by linarith, ?_⟩
        by_cases h0 : c = 0
        · left; right; simp [h0]
        · left; left; left; exact h0
      have hlast : interiorExtrema G (gridFloor (k + 2) :: gridFloor (k + 3) ::
          (List.range (301 - k)).map fun i => gridFloor (k + 4 + i)) = [] := by
        apply interior_rising
        apply rising_of_mono
        · have : (gridFloor (k + 2) :: gridFloor (k + 3) ::
            (List.range (301 - k)).map fun i => gridFloor (k + 4 + i)).Sublist defaultGrid := by
            rw [hsplit]
            exact ((List.sublist_cons_self _ _).trans (List.sublist_cons_self _ _)).trans
              (List.sublist_append_right _ _)
          exact hs.sublist this
        · have hmem : ∀ x ∈ (gridFloor (k + 2) :: gridFloor (k + 3) ::
              (List.range (301 - k)).map fun i => gridFloor (k + 4 + i)),
              x = gridFloor (k + 2) ∨ gridFloor (k + 3) ≤ x := by
            intro x hx
            rcases List.mem_cons.1 hx with rfl | hx
            · left; rfl
            · right
              rcases List.mem_cons.1 hx with rfl | hx
              · exact le_refl _
              · obtain ⟨i, -, rfl⟩ := List.mem_map.1 hx
                exact gridFloor_strictMono.monotone (by omega)
          intro a ha b hb hab
          rcases hmem a ha with rfl | h1 <;> rcases hmem b hb with rfl | h2
          · exact absurd hab (lt_irrefl _)
          · rw [hc b h2]; exact hd
          · have := gridFloor_strictMono (show k + 2 < k + 3 by omega); omega
          · rw [hc a h1, hc b h2]
      rw [interior_cons, if_pos (by rw [sgn1, sgn2]; rfl), interior_cons,
        if_pos (by rw [sgn2, sgn3]; rfl), hlast]
      have hc3 := hc _ (le_refl (gridFloor (k + 3)))
      rw [habs, habs', habs', habs', habs', hc3, he1, he2]
    · apply rising_of_mono
      · have hsub : (((List.range 64).map (fun n : ℕ => (n : ℤ)) ++ (List.range k).map gridFloor) ++
            [gridFloor k, gridFloor (k + 1)]).Sublist defaultGrid := by
          rw [hsplit]
          exact List.Sublist.append_left (by simp) _
        exact hs.sublist hsub
      · intro a ha b hb hab
        have hmem : ∀ x ∈ ((List.range 64).map (fun n : ℕ => (n : ℤ)) ++ (List.range k).map gridFloor) ++
            [gridFloor k, gridFloor (k + 1)],
            (0 ≤ x ∧ x < gridFloor k) ∨ x = gridFloor k ∨ x = gridFloor (k + 1) := by
          intro x hx
          simp only [List.mem_append, List.mem_map, List.mem_range, List.mem_cons, List.not_mem_nil,
            or_false] at hx
          rcases hx with (⟨n, hn, rfl⟩ | ⟨i, hi, rfl⟩) | hx
          · left; omega
          · left; exact ⟨by have := gridFloor_ge i; omega, gridFloor_strictMono hi⟩
          · right; exact hx
        have hlt := gridFloor_strictMono (show k < k + 1 by omega)
        rcases hmem a ha with h1 | rfl | rfl
        · rw [h0 a h1.1 h1.2]; exact hpos b
        · rcases hmem b hb with h2 | rfl | rfl
          · omega
          · exact absurd hab (lt_irrefl _)
          · exact ‹f (gridFloor k) ≤ f (gridFloor (k + 1))›
        · rcases hmem b hb with h2 | rfl | rfl
          · omega
          · omega
          · exact absurd hab (lt_irrefl _)
  rw [extrema_eq G defaultGrid 0 1 (gridFloor 304) (gridFloor 303) m m' hm hm', hint]
  have f0 : f 0 = 0 := h0 0 (le_refl _) (by omega)
  have f1 : f 1 = 0 := h0 1 (by omega) (by omega)
  have g303 : f (gridFloor 303) = c := hc _ (gridFloor_strictMono.monotone (by omega))
  have g304 : f (gridFloor 304) = c := hc _ (gridFloor_strictMono.monotone (by omega))
  simp only [habs', f0, f1, g303, g304, hG, FVal.mk', FVal.signbit]
  simp

theorem bis_left (g : ℤ → ℝ) {a b : ℤ} {ga gb : ℝ} (m : ℤ) (h : 2 < b - a) (hm : (a + b).fdiv 2 = m)
    (hg : g (m + 1) < g m) :
    bisectDiscrExtremum g a b ga gb = bisectDiscrExtremum g a (m + 1) ga (g (m + 1)) := by
  rw [bisectDiscrExtremum, if_neg (by omega), if_neg (by omega)]
  simp only [hm]
  rw [if_pos hg]

theorem bis_right (g : ℤ → ℝ) {a b : ℤ} {ga gb : ℝ} (m : ℤ) (h : 2 < b - a) (hm : (a + b).fdiv 2 = m)
    (hg : g m ≤ g (m + 1)) :
    bisectDiscrExtremum g a b ga gb = bisectDiscrExtremum g m b (g m) gb := by
  rw [bisectDiscrExtremum, if_neg (by omega), if_neg (by omega)]
  simp only [hm]
  rw [if_neg (not_lt.2 hg)]

theorem bis_stop (g : ℤ → ℝ) {a b : ℤ} {ga gb : ℝ} (h : b - a = 2) :
    bisectDiscrExtremum g a b ga gb = a + 1 := by
  rw [bisectDiscrExtremum, if_neg (by omega), if_pos h]

/-- Function values for which the same extremum is found from two overlapping brackets. -/
noncomputable def repF (n : ℤ) : ℝ :=
  if n ≤ 65 then 0 else if n ≤ 68 then 1 else if n = 69 then 3 else if n = 70 then 5
  else if n = 71 then 2 else if n = 72 then 1 else if n = 73 then 1 / 2 else 4

/-- Function values for which the extrema are not found in ascending order. -/
noncomputable def revF (n : ℤ) : ℝ :=
  if n < 234 then 0 else if n ≤ 244 then 1 else if n = 245 then 5 else if n = 246 then 6
  else if n = 247 then 4 else if n = 248 then 3 else if n = 249 then 2 else if n = 250 then 1
  else if n = 251 then 2 else if n ≤ 253 then 1 else if n = 254 then 2 else if n ≤ 256 then 1
  else if n = 257 then 1 / 2 else 7

theorem repF_extrema : discreteExtrema (fun n => FVal.mk' (repF n)) defaultGrid = .ok [70, 70] := by
  have g1 : gridFloor 1 = 66 := gridFloor_eq 1 66 (by norm_num) (by norm_num)
  have g2 : gridFloor 2 = 69 := gridFloor_eq 2 69 (by norm_num) (by norm_num)
  have g3 : gridFloor 3 = 72 := gridFloor_eq 3 72 (by norm_num) (by norm_num)
  have g4 : gridFloor 4 = 76 := gridFloor_eq 4 76 (by norm_num) (by norm_num)
  apply bump_extrema repF 1 (by omega) (c := 4)
  · intro n h1 h2; rw [g1] at h2; simp only [repF]; rw [if_pos (by omega)]
  · intro n; unfold repF; split_ifs <;> norm_num
  · intro n hn
    rw [g4] at hn
    simp only [repF]
    rw [if_neg (by omega), if_neg (by omega), if_neg (by omega), if_neg (by omega), if_neg (by omega),
      if_neg (by omega), if_neg (by omega)]
  · rw [g1, g2]; norm_num [repF]
  · rw [g2, g3]; norm_num [repF]
  · rw [g3]; norm_num [repF]
  · rw [g1, g3, bis_right _ 69 (by decide) (by decide) (by norm_num [repF]),
      bis_left _ 70 (by decide) (by decide) (by norm_num [repF]), bis_stop _ (by decide)]
    rfl
  · rw [g2, g4, bis_left _ 72 (by decide) (by decide) (by norm_num [repF]),
      bis_left _ 71 (by decide) (by decide) (by norm_num [repF]),
      bis_left _ 70 (by decide) (by decide) (by norm_num [repF]), bis_stop _ (by decide)]
    rfl

theorem revF_extrema : discreteExtrema (fun n => FVal.mk' (revF n)) defaultGrid = .ok [254, 246] := by
  have g1 : gridFloor 30 = 234 := gridFloor_eq 30 234 (by norm_num) (by norm_num)
  have g2 : gridFloor 31 = 245 := gridFloor_eq 31 245 (by norm_num) (by norm_num)
  have g3 : gridFloor 32 = 256 := gridFloor_eq 32 256 (by norm_num) (by norm_num)
  have g4 : gridFloor 33 = 267 := gridFloor_eq 33 267 (by norm_num) (by norm_num)
  apply bump_extrema revF 30 (by omega) (c := 7)
  · intro n h1 h2; rw [g1] at h2; simp only [revF]; rw [if_pos (by omega)]
  · intro n
    have this : ∀ (c : Prop) [Decidable c] (a b : ℝ), 0 ≤ a → 0 ≤ b → 0 ≤ if c then a else b := by
      intro c _ a b h1 h2; split <;> assumption
    unfold revF
    repeat' apply this
    all_goals norm_num
  · intro n hn
    rw [g4] at hn
    simp only [revF]
    rw [if_neg (by omega), if_neg (by omega), if_neg (by omega), if_neg (by omega), if_neg (by omega),
      if_neg (by omega), if_neg (by omega), if_neg (by omega), if_neg (by omega), if_neg (by omega),
      if_neg (by omega), if_neg (by omega), if_neg (by omega)]
  · rw [g1, g2]; norm_num [revF]
  · rw [g2, g3]; norm_num [revF]
  · rw [g3]; norm_num [revF]
  · rw [g1, g3, bis_right _ 245 (by decide) (by decide) (by norm_num [revF]),
      bis_right _ 250 (by decide) (by decide) (by norm_num [revF]),
      bis_right _ 253 (by decide) (by decide) (by norm_num [revF]),
      bis_left _ 254 (by decide) (by decide) (by norm_num [revF]), bis_stop _ (by decide)]
    rfl
  · rw [g2, g4, bis_left _ 256 (by decide) (by decide) (by norm_num [revF]),
      bis_left _ 251 (by decide) (by decide) (by norm_num [revF]),
      bis_left _ 248 (by decide) (by decide) (by norm_num [revF]),
      bis_left _ 247 (by decide) (by decide) (by norm_num [revF]),
      bis_left _ 246 (by decide) (by decide) (by norm_num [revF]), bis_stop _ (by decide)]
    rfl

/-- A transform of two functions with an asymptotic model (non-vacuity of the theorems above). -/
noncomputable def exUhat (freq : Freq) : PFT (Fin 2) := ⟨exPair, freq, some 1, some []⟩

theorem exUhat_symm (freq : Freq) (l : Fin 2) :
    (exUhat freq).poly.symm l = 1 ∨ (exUhat freq).poly.symm l = -1 := neg_one_pow_eq_or ℝ _

example (F : Fin 2 → ℤ → FVal ℝ) : ∃ wn w, defaultMatsubara (exUhat .even) F 0 false false =
    some (.ok (wn, w)) ∧ GoodPoints 0 false wn :=
  have ⟨wn, w, h1, h2, _⟩ := C20_sign_changes (exUhat .even) F 0 false rfl rfl [] rfl 0 (Or.inl ⟨rfl, rfl⟩) 1
    ⟨by decide, by decide, nofun, fun _ => rfl⟩ 1 (Or.inl ⟨rfl, rfl⟩) (by decide) (exUhat_symm _)
  ⟨wn, w, h1, h2⟩

/-- Disagreement: in the fall-back branch a fermionic frequency may be repeated. -/
theorem C20_fallback_repeats : ∃ w, defaultMatsubara (exUhat .odd) (fun _ n => FVal.mk' (repF n)) 2 false
    false = some (.ok ([-141, -141, 141, 141], w)) := by
  obtain ⟨x0, hx0, -, heq⟩ := fallback_eq (exUhat .odd) (fun _ n => FVal.mk' (repF n)) 2 false rfl rfl []
    rfl 1 rfl (by decide) (by decide) (exUhat_symm _)
  rw [repF_extrema] at hx0
  obtain rfl := Except.ok.inj hx0
  exact ⟨_, heq⟩

/-- Disagreement: in the fall-back branch the construction may fail altogether. -/
theorem C20_fallback_raises : defaultMatsubara (exUhat .even) (fun _ n => FVal.mk' (revF n)) 2 false
    false = some (.error .valueError) := by
  obtain ⟨x0, hx0, -, heq⟩ := fallback_eq (exUhat .even) (fun _ n => FVal.mk' (revF n)) 2 false rfl rfl []
    rfl 0 rfl (by decide) (by decide) (exUhat_symm _)
  rw [revF_extrema] at hx0
  obtain rfl := Except.ok.inj hx0
  exact heq

/-- Disagreement: if no extremum is found (constant function) the construction raises IndexError. -/
theorem C20_fallback_empty : defaultMatsubara (exUhat .even) (fun _ _ => FVal.mk' 1) 2 false
    false = some (.error .indexError) := by
  obtain ⟨x0, hx0, h, -⟩ := C20_fallback_errors (exUhat .even) (fun _ _ => FVal.mk' 1) 2 false rfl rfl []
    rfl 0 (Or.inl ⟨rfl, rfl⟩) 3 ⟨by decide, by decide, nofun, fun _ => rfl⟩ (by decide) (by decide)
    (exUhat_symm _)
  refine h.2 ?_
  obtain ⟨m', hm'⟩ := last_two
  obtain ⟨m, hm⟩ := first_two
  rw [extrema_eq _ defaultGrid 0 1 (gridFloor 304) (gridFloor 303) m m' hm hm', interior_rising] at hx0
  · simpa using hx0.symm
  · exact rising_of_mono (fun _ => 1) _ defaultGrid_sorted (fun _ _ _ _ _ => le_refl _)

/-! ### The points are where the transform changes sign -/

theorem toMatsubara_nonneg {z : ℤ} (hz : z = 0 ∨ z = 1) (po : Bool) {x0 wn : List ℤ} (hs : x0.Pairwise (· < ·))
    (hn : ∀ x ∈ x0, 0 ≤ x) (h : toMatsubara z po x0 = .ok wn) (n : ℤ) (h0 : 0 ≤ n) :
    n ∈ wn ↔ ∃ x ∈ x0, n = 2 * x + z := by
  have h2 : ∀ y ∈ x0.map (fun x => 2 * x + z), 0 ≤ y := by
    intro y hy
    obtain ⟨x, hx, rfl⟩ := List.mem_map.1 hy
    have := hn x hx; omega
  have hmem : (∃ x ∈ x0, n = 2 * x + z) ↔ n ∈ x0.map fun x => 2 * x + z := by
    rw [List.mem_map]
    exact ⟨fun ⟨x, hx, he⟩ => ⟨x, hx, he.symm⟩, fun ⟨x, hx, he⟩ => ⟨x, hx, he.symm⟩⟩
  rw [hmem]
  unfold toMatsubara at h
  cases po with
  | true =>
    obtain rfl := Except.ok.inj h
    exact Iff.rfl
  | false =>
    simp only [Bool.false_eq_true, if_false] at h
    have hle : (x0.map fun x => 2 * x + z).Pairwise (· ≤ ·) := by
      rw [List.pairwise_map]; exact hs.imp (by intro a b h; omega)
    obtain ⟨r, hr, hsym⟩ := symm_result hle h2
    obtain rfl := Except.ok.inj (hr.symm.trans h)
    rcases h0.eq_or_lt with h0 | h0
    · subst h0
      have hnd : (x0.map fun x => 2 * x + z).Nodup := by
        have : (x0.map fun x => 2 * x + z).Pairwise (· < ·) := by
          rw [List.pairwise_map]; exact hs.imp (by intro a b h; omega)
        exact this.imp (fun h => ne_of_lt h)
      have := hsym.zero (List.nodup_iff_count_le_one.1 hnd 0)
      rw [← List.count_pos_iff, ← List.count_pos_iff, this]
    · have e : (n ∈ r.filter (0 < ·)) ↔ n ∈ (x0.map fun x => 2 * x + z).filter (0 < ·) := by rw [hsym.positive]
      simpa [h0] using e

theorem product_of_signbits {a b : FVal ℝ} (h : a.signbit ≠ b.signbit) : a.val * b.val ≤ 0 := by
  by_contra hc
  push Not at hc
  apply h
  unfold FVal.signbit
  rcases pos_and_pos_or_neg_and_neg_of_mul_pos hc with ⟨h1, h2⟩ | ⟨h1, h2⟩
  · rw [a.pos_of_gt h1, b.pos_of_gt h2]
  · rw [a.neg_of_lt h1, b.neg_of_lt h2]

/-- A transform with a model for its asymptotic region can be evaluated at every frequency of its parity. -/
theorem call_total (f : PFT ι) (h : f.poly.WF) (hmin : f.poly.xmin = -1) (hmax : f.poly.xmax = 1)
    (hlen : ∀ i l, (f.poly.coef i l).length = f.poly.polyorder) (hm : f.nAsymp = none ∨ ∃ m, f.model = some m)
    (n : ℤ) (hn : Admits f.freq n) : ∃ v, f.call n = .ok v := by
  have hchk : Util.checkReducedMatsubara (.ints [n]) f.freq.zeta = .ok [n] :=
    (C01_ints [n] [n] _).2 ⟨rfl, by simpa using (hasParity_iff _ _).2 hn⟩
  unfold PFT.call
  rw [hchk]
  simp only
  rw [C14_inner f.poly h hmin hmax hlen n]
  simp only
  rcases hm with hm | ⟨m, hm⟩
  · rw [hm]; exact ⟨_, rfl⟩
  · rw [hm]
    cases f.nAsymp with
    | none => exact ⟨_, rfl⟩
    | some na =>
      simp only
      split
      · exact ⟨_, rfl⟩
      · exact ⟨_, rfl⟩

/-- There are float functions with the values of the transform, as `C20_located` asks for. -/
theorem samples_exist (p : PPoly ι) (hw : p.WF) (hmin : p.xmin = -1) (hmax : p.xmax = 1)
    (hlen : ∀ i l, (p.coef i l).length = p.polyorder) (freq : Freq) (z : ℤ) (hoff : FreqOffset freq z) (na : ℝ)
    (pos : ι → ℕ) (f : PFT ι) (hf : PFT.ctor pos p freq (some na) none = .ok f) :
    ∃ F : ι → ℤ → FVal ℝ, ∀ l g pt, f.select (fun _ => 0) (fun _ : Unit => l) = .ok g →
      partFor (p.symm l) freq.zeta .none = .ok pt → g.Samples pt (F l) := by
  have hff : f.poly = p ∧ f.freq = freq ∧ ∃ m, f.model = some m := by
    unfold PFT.ctor at hf
    split at hf
    · cases hf
    · simp only at hf
      split at hf
      · cases hf
      · obtain rfl := Except.ok.inj hf
        exact ⟨rfl, rfl, _, rfl⟩
  have hcall : ∀ k : ℤ, ∃ v, f.call (2 * k + z) = .ok v := by
    intro k
    refine call_total f (by rw [hff.1]; exact hw) (by rw [hff.1]; exact hmin) (by rw [hff.1]; exact hmax)
      (by rw [hff.1]; exact hlen) (Or.inr hff.2.2) _ ?_
    rw [hff.2.1, ← hasParity_iff, hoff.zeta]
    rcases hoff with ⟨-, h⟩ | ⟨-, h⟩ <;> subst h
    · exact Int.even_iff.1 ⟨k, by ring⟩
    · exact Int.odd_iff.1 ⟨k, by ring⟩
  choose v hv using hcall
  classical
  refine ⟨fun l k => FVal.mk' (match partFor (p.symm l) freq.zeta .none with
    | .ok pt => pt.get (v k l)
    | .error _ => 0), ?_⟩
  intro l g pt hg hpt k
  obtain ⟨g', hg', hc⟩ := C10_ft_select pos (fun _ : Unit => 0) p
    (fun i l i' l' => (hlen i l).trans (hlen i' l').symm) freq na none f hf (fun _ : Unit => l)
  obtain rfl := Except.ok.inj (hg.symm.trans hg')
  have hgf : g.freq = freq := by
    unfold PFT.select at hg
    simp only at hg
    rw [hff.1, if_neg (show ¬ ((p.select fun _ : Unit => l).xmin ≠ -1 ∨
      (p.select fun _ : Unit => l).xmax ≠ 1) by push Not; exact ⟨hmin, hmax⟩)] at hg
    split at hg
    · obtain rfl := Except.ok.inj hg
      exact hff.2.1
    · split at hg
      · cases hg
      · obtain rfl := Except.ok.inj hg
        exact hff.2.1
  unfold PFT.partFun
  rw [hgf, hoff.zeta]
  simp only
  rw [hc, hv]
  simp only [Except.map]
  rw [← hoff.zeta, hpt]
  rfl

open scoped ComplexConjugate in
/-- Regular branch, for functions of alternating parity: if the search sees the values of the transform (real or
imaginary part, as chosen from the parity), then the function of index `r` changes sign (or vanishes) between each
non-negative point returned and the next frequency, and there is a point for every change of sign between
neighbours of the search grid. -/
theorem C20_located (p : PPoly (Fin size)) (hw : p.WF) (hmin : p.xmin = -1) (hmax : p.xmax = 1) (hpo : 1 ≤ p.polyorder)
    (hlen : ∀ i l, (p.coef i l).length = p.polyorder) (freq : Freq) (z : ℤ) (hoff : FreqOffset freq z) (na : ℝ)
    (hsym : ∀ (l : Fin size) x, -1 < x → x < 1 → fn p l (-x) = (-1) ^ (l : ℕ) * fn p l x)
    (hsymm : ∀ l : Fin size, p.symm l = (-1) ^ (l : ℕ)) (f : PFT (Fin size))
    (hf : PFT.ctor (fun l : Fin size => (l : ℕ)) p freq (some na) none = .ok f) (L : ℕ) (po : Bool)
    (r : ℕ) (hreq : Requested freq L r) (hl : r < size) (F : Fin size → ℤ → FVal ℝ)
    (hF : ∀ g pt, f.select (fun _ => 0) (fun _ : Unit => ⟨r, hl⟩) = .ok g →
      partFor (p.symm ⟨r, hl⟩) freq.zeta .none = .ok pt → g.Samples pt (F ⟨r, hl⟩)) :
    ∃ wn w, defaultMatsubara f F L false po = some (.ok (wn, w)) ∧
      (∀ n ∈ wn, 0 ≤ n → ∃ U V, f.call n = .ok U ∧ f.call (n + 2) = .ok V ∧
        (U ⟨r, hl⟩ * conj (V ⟨r, hl⟩)).re ≤ 0) ∧
      ∀ a b, Adjacent defaultGrid a b → ∃ U V, f.call (2 * a + z) = .ok U ∧ f.call (2 * b + z) = .ok V ∧
        ((U ⟨r, hl⟩ * conj (V ⟨r, hl⟩)).re < 0 → ∃ n ∈ wn, 2 * a + z ≤ n ∧ n < 2 * b + z) := by
  have hz := hoff.zeta
  have hz01 : z = 0 ∨ z = 1 := by rcases hoff with ⟨-, h⟩ | ⟨-, h⟩ <;> simp [h]
  have hne : freq ≠ .any := by rcases hoff with ⟨h, -⟩ | ⟨h, -⟩ <;> rw [h] <;> decide
  obtain rfl := hreq.eq hoff
  obtain ⟨pt, hpt, hval⟩ := C18_part p hw hmin hmax hpo hlen (fun l : Fin size => (l : ℕ)) freq hne (some na) hsym hsymm
    f hf ⟨_, hl⟩
  obtain ⟨g, hg, hcall⟩ := C10_ft_select (fun l : Fin size => (l : ℕ)) (fun _ : Unit => 0) p
    (fun i l i' l' => (hlen i l).trans (hlen i' l').symm) freq na none f hf (fun _ : Unit => ⟨_, hl⟩)
  have hff : f.poly = p ∧ f.freq = freq := by
    unfold PFT.ctor at hf
    split at hf
    · cases hf
    · simp only at hf
      split at hf
      · cases hf
      · obtain rfl := Except.ok.inj hf
        exact ⟨rfl, rfl⟩
  have hgf : g.poly.symm () = p.symm ⟨_, hl⟩ ∧ g.freq = freq := by
    unfold PFT.select at hg
    simp only at hg
    rw [hff.1, if_neg (show ¬ ((p.select fun _ : Unit => (⟨_, hl⟩ : Fin size)).xmin ≠ -1 ∨
      (p.select fun _ : Unit => (⟨_, hl⟩ : Fin size)).xmax ≠ 1) by push Not; exact ⟨hmin, hmax⟩)] at hg
    split at hg
    · obtain rfl := Except.ok.inj hg
      exact ⟨rfl, hff.2⟩
    · split at hg
      · cases hg
      · obtain rfl := Except.ok.inj hg
        exact ⟨rfl, hff.2⟩
  set l : Fin size := ⟨_, hl⟩ with hldef
  have hS := hF g pt hg hpt
  have hpart : ∀ k : ℤ, ∃ v, f.call (2 * k + z) = .ok v ∧
      ((pt = .real ∧ v l = ((F l k).val : ℂ)) ∨ (pt = .imag ∧ v l = ((F l k).val : ℂ) * Complex.I)) := by
    intro k
    have h1 := hS k
    unfold PFT.partFun at h1
    rw [hgf.2, hz] at h1
    simp only at h1
    rw [hcall] at h1
    cases hc : f.call (2 * k + z) with
    | error e => rw [hc] at h1; cases h1
    | ok v =>
      rw [hc] at h1
      have h2 : pt.get (v l) = (F l k).val := Except.ok.inj h1
      have h3 := hval _ v hc
      refine ⟨v, rfl, ?_⟩
      cases pt with
      | real =>
        refine Or.inl ⟨rfl, ?_⟩
        rw [← h2]; exact h3
      | imag =>
        refine Or.inr ⟨rfl, ?_⟩
        rw [← h2]; exact h3
  have hprod : ∀ k k' v v', f.call (2 * k + z) = .ok v → f.call (2 * k' + z) = .ok v' →
      (v l * conj (v' l)).re = (F l k).val * (F l k').val := by
    intro k k' v v' hv hv'
    obtain ⟨w, hw, h1⟩ := hpart k
    obtain ⟨w', hw', h2⟩ := hpart k'
    obtain rfl := Except.ok.inj (hv.symm.trans hw)
    obtain rfl := Except.ok.inj (hv'.symm.trans hw')
    rcases h1 with ⟨h0, h1⟩ | ⟨h0, h1⟩ <;> rcases h2 with ⟨h3, h2⟩ | ⟨h3, h2⟩
    · rw [h1, h2]; simp
    · rw [h0] at h3; cases h3
    · rw [h0] at h3; cases h3
    · rw [h1, h2]; simp
  obtain ⟨x0, hr, hsp⟩ := C05_find_all_discrete (F l) defaultGrid defaultGrid_sorted
  have hnn : ∀ x ∈ x0, 0 ≤ x := by
    obtain ⟨x0', h1, -, h2⟩ := discr_roots_nonneg (F l)
    obtain rfl := Except.ok.inj (Option.some.inj (hr.symm.trans h1))
    exact h2
  obtain ⟨wn, hwn, -⟩ := toMatsubara_strict hz01 po hsp.sorted hnn
  have hmem := toMatsubara_nonneg hz01 po hsp.sorted hnn hwn
  refine ⟨wn, decide (wn.length ≠ expectedSize (lRequested freq L) po), ?_, ?_, ?_⟩
  · unfold defaultMatsubara
    simp only [hff.2, dif_pos hl]
    rw [show f.select (fun _ => 0) (fun _ : Unit => (⟨lRequested freq L, hl⟩ : Fin size)) = .ok g from hg]
    have hsc : g.signChanges (F l) .none defaultGrid po = some (.ok wn) := by
      unfold PFT.signChanges
      rw [hgf.1, hgf.2, hpt]
      simp only
      rw [hz]
      simp only
      rw [hr]
      simp only
      rw [hwn]
    rw [hldef] at hsc
    simp only [hsc]
    rfl
  · intro n hn h0
    obtain ⟨x, hx, rfl⟩ := (hmem n h0).1 hn
    obtain ⟨U, hU, -⟩ := hpart x
    obtain ⟨V, hV, -⟩ := hpart (x + 1)
    refine ⟨U, V, hU, by rw [← hV]; congr 1; ring, ?_⟩
    rw [hprod x (x + 1) U V hU hV]
    rcases hsp.sound x hx with h | ⟨a, b, -, -, -, -, h⟩
    · rw [h.2, zero_mul]
    · exact product_of_signbits h
  · intro a b hab
    obtain ⟨U, hU, -⟩ := hpart a
    obtain ⟨V, hV, -⟩ := hpart b
    refine ⟨U, V, hU, hV, fun hneg => ?_⟩
    rw [hprod a b U V hU hV] at hneg
    obtain ⟨x, ⟨hx, h1, h2⟩, -⟩ := hsp.changes a b hab hneg
    have hx0 := hnn x hx
    exact ⟨2 * x + z, (hmem _ (by omega)).2 ⟨x, hx, rfl⟩, by omega, by omega⟩

end Verif.Props
