import Verif.Model.Ravel
import Mathlib.Data.List.Basic
/-!
# C04 — a bound evaluator always evaluates the object it was taken from

Full statement (`BoundEvaluator`): for every history, the outputs of the library equal the outputs
of the specification in which a name remembers the object it was taken from.  It is **false** of
the code (`C04_negation`); what holds is `C04_last_access` (every call evaluates the object of the
most recent access, whichever that was) and `C04_immediate_partial` (the full statement for
histories in which every call directly follows an access through the same name).
-/

namespace Verif.Props
open Verif Verif.Util

/-- Specification: what each name refers to (`none`: the class itself). -/
abbrev Env (Obj : Type _) := List (ℕ × Option Obj)

/-- Specification step: a name is bound to the object it was obtained from, forever (until rebound). -/
def specStep {Obj Arg Out : Type _} (inner : Obj → Arg → Out) (env : Env Obj) :
    Event Obj Arg → Env Obj × Option (PyM Out)
  | .access h o => ((h, some o) :: env, none)
  | .accessClass h => ((h, none) :: env, none)
  | .call h x => (env, (env.lookup h).map fun
      | some o => .ok (inner o x)
      | none => .error .typeError)

def specRun {Obj Arg Out : Type _} (inner : Obj → Arg → Out) :
    Env Obj → List (Event Obj Arg) → List (Option (PyM Out))
  | _, [] => []
  | s, e :: es => (specStep inner s e).2 :: specRun inner (specStep inner s e).1 es

/-- The full English claim. -/
def BoundEvaluator : Prop :=
  ∀ (Obj Arg Out : Type) (inner : Obj → Arg → Out) (es : List (Event Obj Arg)),
    descRun inner .init es = specRun inner [] es

/-- The claim is false: `f = A.giw; g = B.giw; f(x)` evaluates `B`. -/
theorem C04_negation : ¬ BoundEvaluator := by
  intro h
  have := h Bool Unit Bool (fun o _ => o)
    [.access 0 true, .access 1 false, .call 0 ()]
  revert this
  simp [descRun, specRun, descStep, specStep, DescState.init, List.lookup]

/-- The object of the most recent attribute access in a history (`none`: class access or no access). -/
def lastAccess {Obj Arg : Type _} (es : List (Event Obj Arg)) : Option Obj :=
  es.foldl (fun acc e => match e with
    | .access _ o => some o
    | .accessClass _ => none
    | .call _ _ => acc) none

/-- The names bound by a history. -/
def boundNames {Obj Arg : Type _} (es : List (Event Obj Arg)) : List ℕ :=
  es.foldl (fun acc e => match e with
    | .access h _ => h :: acc
    | .accessClass h => h :: acc
    | .call _ _ => acc) []

private theorem run_append {Obj Arg Out : Type _} (inner : Obj → Arg → Out)
    (s : DescState Obj) (es fs : List (Event Obj Arg)) :
    descRun inner s (es ++ fs) = descRun inner s es ++
      descRun inner (es.foldl (fun s e => (descStep inner s e).1) s) fs := by
  induction es generalizing s with
  | nil => simp [descRun]
  | cons e es ih => simp [descRun, ih]

private theorem state_foldl {Obj Arg Out : Type _} (inner : Obj → Arg → Out)
    (s : DescState Obj) (es : List (Event Obj Arg)) :
    es.foldl (fun s e => (descStep inner s e).1) s =
      ⟨es.foldl (fun acc e => match e with
        | .access _ o => some o
        | .accessClass _ => none
        | .call _ _ => acc) s.instance_,
       es.foldl (fun acc e => match e with
        | .access h _ => h :: acc
        | .accessClass h => h :: acc
        | .call _ _ => acc) s.bound⟩ := by
  induction es generalizing s with
  | nil => rfl
  | cons e es ih =>
    simp only [List.foldl_cons]
    rw [ih]
    cases e with
    | access h o => rfl
    | accessClass h => rfl
    | call h x =>
      simp only [descStep]
      split <;> rfl

/-- What every history actually does: a call through any bound name evaluates the object of the
most recent attribute access. -/
theorem C04_last_access {Obj Arg Out : Type _} (inner : Obj → Arg → Out)
    (es : List (Event Obj Arg)) (h : ℕ) (x : Arg) (hb : h ∈ boundNames es) :
    (descRun inner .init (es ++ [.call h x])).getLast? =
      some (some (match lastAccess es with
        | some o => .ok (inner o x)
        | none => .error .typeError)) := by
  rw [run_append, state_foldl]
  change (_ ++ descRun inner ⟨lastAccess es, boundNames es⟩ _).getLast? = _
  simp only [descRun, descStep, hb, if_true]
  cases lastAccess es <;> simp

/-- A history in which every call directly follows an access through the same name, i.e. only
expressions of the form `obj.method(x)`. -/
def Immediate {Obj Arg : Type _} : List (Event Obj Arg) → Prop
  | [] => True
  | .access h _ :: .call h' _ :: es => h = h' ∧ Immediate es
  | .access _ _ :: es => Immediate es
  | .accessClass _ :: es => Immediate es
  | .call _ _ :: _ => False

private theorem immediate_run {Obj Arg Out : Type _} (inner : Obj → Arg → Out)
    (es : List (Event Obj Arg)) (himm : Immediate es) (s : DescState Obj) (env : Env Obj) :
    descRun inner s es = specRun inner env es := by
  fun_induction Immediate es generalizing s env with
  | case1 => rfl
  | case2 h o h' x es ih =>
    obtain ⟨rfl, h2⟩ := himm
    simp only [descRun, specRun, descStep, specStep, List.mem_cons, true_or, if_true,
      List.lookup_cons, beq_self_eq_true, Option.map_some]
    rw [ih h2]
  | case3 h o es _ ih =>
    simp only [descRun, specRun, descStep, specStep]
    rw [ih himm]
  | case4 h es ih =>
    simp only [descRun, specRun, descStep, specStep]
    rw [ih himm]
  | case5 => exact himm.elim

/-- Proved part of the claim: it holds for all histories made of immediate calls `obj.method(x)`.
Missing (because false): histories in which a bound evaluator is stored and called after another
access, and interleavings by threads between access and call. -/
theorem C04_immediate_partial {Obj Arg Out : Type _} (inner : Obj → Arg → Out)
    (es : List (Event Obj Arg)) (himm : Immediate es) :
    descRun inner .init es = specRun inner [] es := immediate_run inner es himm _ _

/-- The same for *stored* evaluators as long as only one object is ever accessed. -/
theorem C04_single_object_partial {Obj Arg Out : Type _} (inner : Obj → Arg → Out) (o : Obj)
    (es : List (Event Obj Arg))
    (hone : ∀ e ∈ es, ∀ h o', e = .access h o' → o' = o)
    (hcls : ∀ e ∈ es, ∀ h, e ≠ .accessClass h) :
    descRun inner .init es = specRun inner [] es := by
  suffices H : ∀ (s : DescState Obj) (env : Env Obj),
      (∀ h, h ∈ s.bound ↔ env.lookup h = some (some o)) →
      (∀ h, env.lookup h = none ∨ env.lookup h = some (some o)) →
      (s.bound ≠ [] → s.instance_ = some o) →
      descRun inner s es = specRun inner env es from
    H _ _ (by simp [DescState.init]) (by simp) (by simp [DescState.init])
  intro s env
  induction es generalizing s env with
  | nil => intros; rfl
  | cons e es ih =>
    intro h1 h2 h3
    have ih' := ih (fun e he => hone e (List.mem_cons_of_mem _ he))
      (fun e he => hcls e (List.mem_cons_of_mem _ he))
    cases e with
    | access h o' =>
      have : o' = o := hone _ (by simp) h o' rfl
      subst this
      simp only [descRun, specRun, descStep, specStep]
      congr 1
      apply ih'
      · intro k
        simp only [List.mem_cons, List.lookup_cons]
        by_cases hk : k = h
        · simp [hk]
        · have : (k == h) = false := by simpa using hk
          simp [hk, this, h1]
      · intro k
        simp only [List.lookup_cons]
        by_cases hk : k = h
        · simp [hk]
        · have : (k == h) = false := by simpa using hk
          rw [this]; exact h2 k
      · simp
    | accessClass h => exact absurd rfl (hcls _ (by simp) h)
    | call h x =>
      simp only [descRun, specRun, descStep, specStep]
      by_cases hb : h ∈ s.bound
      · have e1 : s.instance_ = some o := h3 (List.ne_nil_of_mem hb)
        rw [if_pos hb, e1, (h1 h).1 hb]
        simp only [Option.map_some]
        congr 1
        exact ih' _ _ h1 h2 h3
      · have e1 : env.lookup h = none := by
          rcases h2 h with e | e
          · exact e
          · exact absurd ((h1 h).2 e) hb
        rw [if_neg hb, e1]
        simp only [Option.map_none]
        congr 1
        exact ih' _ _ h1 h2 h3

/- Non-vacuity -/
example : Immediate ([.access 0 true, .call 0 (), .access 1 false, .call 1 ()] :
    List (Event Bool Unit)) := by simp [Immediate]
example : (0 : ℕ) ∈ boundNames ([.access 0 true, .access 1 false] : List (Event Bool Unit)) := by
  simp [boundNames]
example : lastAccess ([.access 0 true, .access 1 false] : List (Event Bool Unit)) = some false := by
  simp [lastAccess]

end Verif.Props
