import Verif.Lemmas.Poly
import Verif.Lemmas.RefineGrid
import Verif.Props.C06_ContinuousRoots
import Verif.Props.C11_Deriv
/-!
# C12 — root finding of symmetric functions is mirror symmetric
-/

namespace Verif.Props
open Verif Verif.Np Verif.Spec Verif.Poly Verif.Roots

/-- Reflection about the midpoint of the interval. -/
def mirror (p : PPoly Unit) (x : ℝ) : ℝ := (p.xmin + p.xmax) - x

/-- A list of points is mirror symmetric about the midpoint. -/
def MirrorSymmetric (p : PPoly Unit) (r : List ℝ) : Prop := r.reverse.map (mirror p) = r

theorem knotList_pairwise {p : PPoly Unit} (h : p.WF) : p.knotList.Pairwise (· < ·) := by
  unfold PPoly.knotList
  rw [List.pairwise_ofFn]
  intro i j hij
  exact h.mono hij

theorem mem_knotList {p : PPoly Unit} (h : p.WF) {x : ℝ} (hx : x ∈ p.knotList) :
    p.xmin ≤ x ∧ x ≤ p.xmax := by
  unfold PPoly.knotList at hx
  obtain ⟨i, rfl⟩ := (List.mem_ofFn' _ _).1 hx
  exact ⟨h.mono.monotone (Fin.zero_le _), h.mono.monotone (Fin.le_last _)⟩

/-- The midpoint of the interval. -/
noncomputable def midpoint (p : PPoly Unit) : ℝ := (p.xmax + p.xmin) / 2

/-- The grid of a symmetric function starts at the midpoint and consists otherwise exactly of the
knots beyond the midpoint, in ascending order. -/
theorem rootGrid_symm {p : PPoly Unit} (h : p.WF) (hs : p.symm () ≠ 0) :
    ∃ l, p.rootGrid = midpoint p :: l ∧ (midpoint p :: l).Pairwise (· < ·) ∧
      (∀ x, x ∈ l ↔ x ∈ p.knotList ∧ midpoint p < x) := by
  have hk := knotList_pairwise h
  unfold PPoly.rootGrid
  simp only [hs, ne_eq, not_false_eq_true, if_true]
  split
  · rename_i hmid
    rw [List.getElem?_eq_some_iff] at hmid
    obtain ⟨hl, hmid⟩ := hmid
    refine ⟨p.knotList.drop (p.nseg / 2 + 1), ?_, ?_, ?_⟩
    · rw [List.drop_eq_getElem_cons hl, hmid]; rfl
    · have := hk.drop (i := p.nseg / 2)
      rw [List.drop_eq_getElem_cons hl, hmid] at this
      exact this
    · intro x
      have hsp : p.knotList = p.knotList.take (p.nseg / 2) ++
          (midpoint p :: p.knotList.drop (p.nseg / 2 + 1)) := by
        conv_lhs => rw [← List.take_append_drop (p.nseg / 2) p.knotList]
        rw [List.drop_eq_getElem_cons hl, hmid]; rfl
      have hk' := hk
      rw [hsp, List.pairwise_append] at hk'
      constructor
      · intro hx
        exact ⟨List.mem_of_mem_drop hx, (List.pairwise_cons.1 hk'.2.1).1 x hx⟩
      · rintro ⟨hx, hlt⟩
        rw [hsp] at hx
        rcases List.mem_append.1 hx with hx | hx
        · exact absurd (hk'.2.2 x hx (midpoint p) (by simp)) (not_lt.2 hlt.le)
        · rcases List.mem_cons.1 hx with rfl | hx
          · exact absurd hlt (lt_irrefl _)
          · exact hx
  · refine ⟨p.knotList.filter (fun t => decide (t > midpoint p)), rfl, ?_, ?_⟩
    · rw [List.pairwise_cons]
      refine ⟨?_, hk.filter _⟩
      intro x hx
      simpa using (List.mem_filter.1 hx).2
    · intro x; simp

theorem mid_le_xmax {p : PPoly Unit} (h : p.WF) : midpoint p ≤ p.xmax := by
  have := h.xmin_lt_xmax; unfold midpoint; linarith

theorem xmin_le_mid {p : PPoly Unit} (h : p.WF) : p.xmin ≤ midpoint p := by
  have := h.xmin_lt_xmax; unfold midpoint; linarith

/-- The refined grid of a symmetric function. -/
theorem refined_symm {p : PPoly Unit} (h : p.WF) (hs : p.symm () ≠ 0) (alpha : ℕ) (ha : 1 ≤ alpha) :
    ∃ grid, refineGrid p.rootGrid alpha = .ok grid ∧ grid.Pairwise (· < ·) ∧
      (∀ x ∈ grid, midpoint p ≤ x ∧ x ≤ p.xmax) ∧ midpoint p ∈ grid ∧
      (∀ x ∈ p.knotList, midpoint p < x → x ∈ grid) := by
  obtain ⟨l, hl, hlp, hlm⟩ := rootGrid_symm h hs
  obtain ⟨r, hr, hp, hlen, hle, hget, hlast⟩ := refineGrid_spec alpha (by omega) _ _ hlp
  refine ⟨_, by rw [hl]; exact hr, hp, ?_, by simp, ?_⟩
  · intro x hx
    refine ⟨?_, ?_⟩
    · rcases List.mem_cons.1 hx with rfl | hx
      · exact le_refl _
      · exact ((List.pairwise_cons.1 hp).1 x hx).le
    · refine (hle x hx).trans ?_
      have := List.getLast_mem (l := midpoint p :: l) (by simp)
      rcases List.mem_cons.1 this with h1 | h1
      · rw [h1]; exact mid_le_xmax h
      · exact (mem_knotList h ((hlm _).1 h1).1).2
  · intro x hx hlt
    have hxl := (hlm x).2 ⟨hx, hlt⟩
    obtain ⟨i, hi, rfl⟩ := List.getElem_of_mem hxl
    rcases Nat.lt_or_ge (i + 1) l.length with h' | h'
    · have := hget (i + 1) h' 0 (by omega)
      simp only [add_zero, List.getElem_cons_succ, Nat.cast_zero, zero_mul] at this
      exact List.mem_of_getElem? this
    · have e : (midpoint p :: l).getLast (by simp) = l[i] := by
        rw [List.getLast_cons (by rintro rfl; simp at hi), List.getLast_eq_getElem]
        congr 1; omega
      rw [e] at hlast
      exact List.mem_of_getElem? hlast

/-- Without symmetry: the plain search on the refined knots. -/
theorem C12_plain (p : PPoly Unit) (h : p.WF) (hs : p.symm () = 0) (eps : ℝ) (heps : 0 < eps)
    (F : ℝ → FVal ℝ) (alpha : ℕ) (ha : 1 ≤ alpha) :
    ∃ grid r, refineGrid p.knotList alpha = .ok grid ∧ p.roots eps F alpha = some (.ok r) ∧
      FindAllSpec F grid (BracketedTo F (eps * absMax grid)) r := by
  have hne : p.knotList = p.knots 0 :: List.ofFn (fun i : Fin p.nseg => p.knots i.succ) := by
    simp [PPoly.knotList, List.ofFn_succ]
  have hk := knotList_pairwise h
  rw [hne] at hk
  obtain ⟨g, hg, hp, -⟩ := refineGrid_spec alpha (by omega) _ _ hk
  rw [← hne] at hg
  obtain ⟨r, hr, hsp⟩ := C06_find_all_cont eps heps F _ hp
  refine ⟨_, r, hg, ?_, hsp⟩
  have hrg : p.rootGrid = p.knotList := by unfold PPoly.rootGrid; simp [hs]
  unfold PPoly.roots
  rw [hrg, hg]
  simp only
  rw [hr]
  simp only
  rw [if_neg (by rw [hs]; norm_num)]
  simp [PPoly.mirrorRoots, hs]

theorem spec_ge_mid {p : PPoly Unit} {F : ℝ → FVal ℝ} {grid r : List ℝ} {xeps m : ℝ}
    (hsp : FindAllSpec F grid (BracketedTo F xeps) r) (hg : ∀ x ∈ grid, m ≤ x ∧ x ≤ p.xmax) :
    ∀ x ∈ r, m ≤ x := by
  intro x hx
  rcases hsp.sound x hx with ⟨h1, -⟩ | ⟨a, b, h1, -, h2⟩
  · exact (hg x h1).1
  · exact (hg a h1.mem.1).1.trans h2.1.le

theorem mirror_mirror (p : PPoly Unit) (x : ℝ) : mirror p (mirror p x) = x := by
  unfold mirror; ring

theorem mirror_mid (p : PPoly Unit) : mirror p (midpoint p) = midpoint p := by
  unfold mirror midpoint; ring

theorem mirror_fun (p : PPoly Unit) : (fun r => (p.xmax + p.xmin) - r) = mirror p := by
  funext x; unfold mirror; ring

theorem map_mirror_mirror (p : PPoly Unit) (l : List ℝ) : (l.map (mirror p)).map (mirror p) = l := by
  rw [List.map_map]
  have : mirror p ∘ mirror p = id := by funext x; exact mirror_mirror p x
  rw [this, List.map_id]

theorem mirror_le_mid {p : PPoly Unit} {x : ℝ} (hx : midpoint p ≤ x) : mirror p x ≤ midpoint p := by
  unfold midpoint mirror at *; linarith

theorem mirror_lt_mid {p : PPoly Unit} {x : ℝ} (hx : midpoint p < x) : mirror p x < midpoint p := by
  unfold midpoint mirror at *; linarith

theorem reverse_map_mirror_pairwise {p : PPoly Unit} {l : List ℝ} (h : l.Pairwise (· < ·)) :
    (l.reverse.map (mirror p)).Pairwise (· < ·) := by
  rw [List.pairwise_map, List.pairwise_reverse]
  refine h.imp ?_
  intro a b hab
  unfold mirror; linarith

/-- Even functions: the search terminates, the roots are mirror symmetric and ascending, the part at
or beyond the midpoint is the plain root search there; the list is strictly ascending unless
the midpoint itself is a root (which is then listed twice). -/
theorem C12_even (p : PPoly Unit) (h : p.WF) (hs : p.symm () = 1) (eps : ℝ) (heps : 0 < eps)
    (F : ℝ → FVal ℝ) (alpha : ℕ) (ha : 1 ≤ alpha) :
    ∃ r, p.roots eps F alpha = some (.ok r) ∧ MirrorSymmetric p r ∧ r.Pairwise (· ≤ ·) ∧
      ((F (midpoint p)).val ≠ 0 → r.Pairwise (· < ·)) ∧
      ∃ grid rr, refineGrid p.rootGrid alpha = .ok grid ∧
        (∀ x ∈ grid, midpoint p ≤ x ∧ x ≤ p.xmax) ∧ midpoint p ∈ grid ∧
        (∀ x ∈ p.knotList, midpoint p < x → x ∈ grid) ∧
        FindAllSpec F grid (BracketedTo F (eps * absMax grid)) rr ∧
        r = rr.reverse.map (mirror p) ++ rr := by
  obtain ⟨grid, hg, hp, hrange, hmid, hkn⟩ := refined_symm h (by rw [hs]; norm_num) alpha ha
  obtain ⟨rr, hr, hsp⟩ := C06_find_all_cont eps heps F grid hp
  have hge := spec_ge_mid (p := p) hsp hrange
  refine ⟨rr.reverse.map (mirror p) ++ rr, ?_, ?_, ?_, ?_, grid, rr, hg, hrange, hmid, hkn, hsp, rfl⟩
  · unfold PPoly.roots
    rw [hg]
    simp only
    rw [hr]
    simp only
    rw [if_neg (by rw [hs]; norm_num)]
    simp only [PPoly.mirrorRoots, hs, if_true, mirror_fun]
  · unfold MirrorSymmetric
    rw [List.reverse_append, List.map_append, ← List.map_reverse, List.reverse_reverse,
      map_mirror_mirror]
  · rw [List.pairwise_append]
    refine ⟨(reverse_map_mirror_pairwise hsp.sorted).imp le_of_lt, hsp.sorted.imp le_of_lt, ?_⟩
    intro x hx y hy
    obtain ⟨z, hz, rfl⟩ := List.mem_map.1 hx
    exact (mirror_le_mid (hge z (List.mem_reverse.1 hz))).trans (hge y hy)
  · intro hne
    have hgt : ∀ x ∈ rr, midpoint p < x := by
      intro x hx
      rcases hsp.sound x hx with ⟨h1, h2⟩ | ⟨a, b, h1, -, h2⟩
      · rcases eq_or_lt_of_le (hge x hx) with he | he
        · rw [← he] at h2; exact absurd h2 hne
        · exact he
      · exact lt_of_le_of_lt (hrange a h1.mem.1).1 h2.1
    rw [List.pairwise_append]
    refine ⟨reverse_map_mirror_pairwise hsp.sorted, hsp.sorted, ?_⟩
    intro x hx y hy
    obtain ⟨z, hz, rfl⟩ := List.mem_map.1 hx
    exact lt_of_lt_of_le (mirror_lt_mid (hgt z (List.mem_reverse.1 hz))) (hge y hy)

theorem call_mid_ok {p : PPoly Unit} (h : p.WF) : ∃ v, p.call (midpoint p) = .ok v := by
  obtain ⟨i, hi⟩ := h.exists_inSeg (xmin_le_mid h) (mid_le_xmax h)
  exact ⟨_, PPoly.call_eq h hi⟩

theorem mid_lt_xmax {p : PPoly Unit} (h : p.WF) : midpoint p < p.xmax := by
  have : p.xmin < p.xmax := h.mono (by
    have := h.pos
    rw [Fin.lt_def]
    simpa using this)
  unfold midpoint
  linarith

/-- What is tested at the midpoint: value times derivative from the right is negative. -/
theorem spuriousMid_ok {p : PPoly Unit} (h : p.WF) : ∃ b d, p.spuriousMid = .ok b ∧
    HasDerivWithinAt (fn p ()) d (Set.Ici (midpoint p)) (midpoint p) ∧ (b = true ↔ fn p () (midpoint p) * d < 0) := by
  obtain ⟨i, hi⟩ := h.exists_inSeg (xmin_le_mid h) (mid_le_xmax h)
  have hlt : midpoint p < p.knots i.succ := by
    rcases hi.2 with h1 | ⟨-, h1⟩
    · exact h1
    · exact absurd h1 (mid_lt_xmax h).ne
  obtain ⟨d, hd, hd'⟩ := C11_deriv_right p h i _ ⟨hi.1, hlt⟩
  have hv : p.call (midpoint p) = .ok fun l => fn p l (midpoint p) := by
    unfold fn
    rw [PPoly.call_eq h hi]
  refine ⟨decide (fn p () (midpoint p) * d () < 0), d (), ?_, hd' (), by simp⟩
  unfold PPoly.spuriousMid
  simp only [midpoint] at hv hd ⊢
  simp only [hv, hd]
  congr

/-- Odd functions: the roots are mirror symmetric and strictly ascending and contain the midpoint
exactly once; the part beyond the midpoint is the plain root search, from which the first entry is removed if it is
the midpoint or if value and slope at the midpoint have opposite signs. -/
theorem C12_odd (p : PPoly Unit) (h : p.WF) (hs : p.symm () = -1) (eps : ℝ) (heps : 0 < eps)
    (F : ℝ → FVal ℝ) (alpha : ℕ) (ha : 1 ≤ alpha) :
    ∃ r, p.roots eps F alpha = some (.ok r) ∧ MirrorSymmetric p r ∧ r.Pairwise (· < ·) ∧
      r.count (midpoint p) = 1 ∧
      ∃ grid rr rr', refineGrid p.rootGrid alpha = .ok grid ∧
        (∀ x ∈ grid, midpoint p ≤ x ∧ x ≤ p.xmax) ∧ midpoint p ∈ grid ∧
        (∀ x ∈ p.knotList, midpoint p < x → x ∈ grid) ∧
        FindAllSpec F grid (BracketedTo F (eps * absMax grid)) rr ∧
        (rr' = rr ∨ rr' = rr.tail) ∧ ((F (midpoint p)).val = 0 → rr' = rr.tail) ∧
        (∀ d, HasDerivWithinAt (fn p ()) d (Set.Ici (midpoint p)) (midpoint p) → (F (midpoint p)).val ≠ 0 →
          (0 ≤ fn p () (midpoint p) * d → rr' = rr) ∧ (fn p () (midpoint p) * d < 0 → rr' = rr.tail)) ∧
        r = rr'.reverse.map (mirror p) ++ midpoint p :: rr' := by
  obtain ⟨grid, hg, hp, hrange, hmid, hkn⟩ := refined_symm h (by rw [hs]; norm_num) alpha ha
  obtain ⟨rr, hr, hsp⟩ := C06_find_all_cont eps heps F grid hp
  have hge := spec_ge_mid (p := p) hsp hrange
  obtain ⟨b, d, hb, hd, hbd⟩ := spuriousMid_ok h
  -- the list after removal
  have key : ∃ rr', (rr' = rr ∨ rr' = rr.tail) ∧ (∀ x ∈ rr', midpoint p < x) ∧
      rr'.Pairwise (· < ·) ∧ ((F (midpoint p)).val = 0 → rr' = rr.tail) ∧
      ((F (midpoint p)).val ≠ 0 → (b = false → rr' = rr) ∧ (b = true → rr' = rr.tail)) ∧
      p.roots eps F alpha = some (.ok (rr'.reverse.map (mirror p) ++ midpoint p :: rr')) := by
    have hroots : p.roots eps F alpha =
        (if p.symm () = -1 ∧ rr ≠ [] ∧ rr.head? ≠ some ((p.xmax + p.xmin) / 2) then
          match p.spuriousMid with
          | .error e => some (.error e)
          | .ok b => some (.ok (p.mirrorRoots b rr))
        else some (.ok (p.mirrorRoots false rr))) := by
      unfold PPoly.roots
      rw [hg]
      simp only
      rw [hr]
      rfl
    have h1 : ¬ ((-1 : ℝ) = 1) := by norm_num
    have hzero : (F (midpoint p)).val = 0 → midpoint p ∈ rr := fun h0 => hsp.zeros _ hmid h0
    cases hrr : rr with
    | nil =>
      refine ⟨[], Or.inl rfl, by simp, by simp, fun _ => rfl, fun _ => ⟨fun _ => rfl, fun _ => rfl⟩, ?_⟩
      rw [hroots, hrr]
      simp [PPoly.mirrorRoots, hs, h1, midpoint]
    | cons r0 rest =>
      have hsorted := hsp.sorted
      rw [hrr] at hsorted
      have hrest : ∀ x ∈ rest, midpoint p < x := fun x hx =>
        lt_of_le_of_lt (hge r0 (by rw [hrr]; simp)) ((List.pairwise_cons.1 hsorted).1 x hx)
      by_cases h0 : r0 = midpoint p
      · have hz : (F (midpoint p)).val = 0 := by
          rcases hsp.sound r0 (by rw [hrr]; simp) with ⟨-, h2⟩ | ⟨a, b, ha, -, h2⟩
          · rw [← h0]; exact h2
          · have := lt_of_le_of_lt (hrange a ha.mem.1).1 h2.1
            rw [h0] at this; exact absurd this (lt_irrefl _)
        refine ⟨rest, Or.inr rfl, hrest, (List.pairwise_cons.1 hsorted).2, fun _ => rfl,
          fun hne => absurd hz hne, ?_⟩
        have h0' : r0 = (p.xmax + p.xmin) / 2 := h0
        rw [hroots, hrr, if_neg (by simp [h0'])]
        simp [PPoly.mirrorRoots, hs, h1, midpoint, h0', mirror_fun]
      · have hall : ∀ x ∈ r0 :: rest, midpoint p < x := by
          intro x hx
          rcases List.mem_cons.1 hx with rfl | hx
          · exact lt_of_le_of_ne (hge x (by rw [hrr]; simp)) (Ne.symm h0)
          · exact hrest x hx
        have hnz : (F (midpoint p)).val ≠ 0 := by
          intro hz
          have := hzero hz
          rw [hrr] at this
          exact lt_irrefl _ (hall _ this)
        have h0' : ¬ r0 = (p.xmax + p.xmin) / 2 := h0
        rw [hroots, hrr, if_pos ⟨hs, by simp, by simpa using h0'⟩, hb]
        cases b with
        | true =>
          refine ⟨rest, Or.inr rfl, hrest, (List.pairwise_cons.1 hsorted).2, fun _ => rfl,
            fun _ => ⟨fun hf => by simp at hf, fun _ => rfl⟩, ?_⟩
          simp [PPoly.mirrorRoots, hs, h1, midpoint, mirror_fun]
        | false =>
          refine ⟨r0 :: rest, Or.inl rfl, hall, hsorted, fun hz => absurd hz hnz,
            fun _ => ⟨fun _ => rfl, fun hf => by simp at hf⟩, ?_⟩
          simp only [PPoly.mirrorRoots, hs, h1, if_false, if_true, h0', mirror_fun, midpoint]
          simp
  obtain ⟨rr', hrr', hgt, hsorted, hz, hnz, hroots⟩ := key
  have hpw : (rr'.reverse.map (mirror p) ++ midpoint p :: rr').Pairwise (· < ·) := by
    rw [List.pairwise_append, List.pairwise_cons]
    refine ⟨reverse_map_mirror_pairwise hsorted, ⟨hgt, hsorted⟩, ?_⟩
    intro x hx y hy
    obtain ⟨z, hz, rfl⟩ := List.mem_map.1 hx
    have hm := mirror_lt_mid (hgt z (List.mem_reverse.1 hz))
    rcases List.mem_cons.1 hy with rfl | hy
    · exact hm
    · exact hm.trans (hgt y hy)
  refine ⟨_, hroots, ?_, hpw, ?_, grid, rr, rr', hg, hrange, hmid, hkn, hsp, hrr', hz, ?_, rfl⟩
  · unfold MirrorSymmetric
    rw [List.reverse_append, List.map_append, ← List.map_reverse, List.reverse_reverse,
      map_mirror_mirror, List.reverse_cons, List.map_append]
    simp [mirror_mid]
  · exact List.count_eq_one_of_mem (hpw.imp ne_of_lt) (by simp)
  · intro d' hd' h0
    obtain rfl : d' = d := (uniqueDiffOn_Ici (midpoint p) _ Set.self_mem_Ici).eq_deriv _ hd' hd
    obtain ⟨h1, h2⟩ := hnz h0
    refine ⟨fun hge => h1 ?_, fun hlt => h2 (hbd.2 hlt)⟩
    rw [← Bool.not_eq_true, hbd]
    exact not_lt.2 hge

/-- An even function with a root exactly at the midpoint: the midpoint is listed twice. -/
theorem C12_even_midpoint_twice (p : PPoly Unit) (h : p.WF) (hs : p.symm () = 1) (eps : ℝ)
    (heps : 0 < eps) (F : ℝ → FVal ℝ) (alpha : ℕ) (ha : 1 ≤ alpha)
    (h0 : (F (midpoint p)).val = 0) :
    ∃ r, p.roots eps F alpha = some (.ok r) ∧ r.count (midpoint p) = 2 := by
  obtain ⟨r, hr, -, -, -, grid, rr, -, -, hmid, -, hsp, rfl⟩ := C12_even p h hs eps heps F alpha ha
  refine ⟨_, hr, ?_⟩
  have hm := hsp.zeros _ hmid h0
  have h1 : rr.count (midpoint p) = 1 := List.count_eq_one_of_mem (hsp.sorted.imp ne_of_lt) hm
  have hinj : Function.Injective (mirror p) := fun a b hab => by unfold mirror at hab; linarith
  have h2 : (rr.reverse.map (mirror p)).count (midpoint p) = 1 := by
    have := List.count_map_of_injective rr.reverse (mirror p) hinj (midpoint p)
    rw [mirror_mid, List.count_reverse, h1] at this
    exact this
  rw [List.count_append, h1, h2]

/- Non-vacuity: the odd function `x` on `[-1, 1]`. -/
example : ∃ r, exPoly.roots (1 / 1000) (fun x => FVal.mk' x) 2 = some (.ok r) ∧
    MirrorSymmetric exPoly r ∧ r.count (midpoint exPoly) = 1 ∧ midpoint exPoly = 0 := by
  obtain ⟨r, h1, h2, -, h3, -⟩ := C12_odd exPoly exPoly_WF rfl (1 / 1000) (by norm_num)
    (fun x => FVal.mk' x) 2 (by norm_num)
  refine ⟨r, h1, h2, h3, ?_⟩
  show ((1 : ℝ) + -1) / 2 = 0
  norm_num

end Verif.Props
