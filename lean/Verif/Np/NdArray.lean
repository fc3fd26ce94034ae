import Verif.Py
import Mathlib.Algebra.BigOperators.Group.List.Basic
import Mathlib.Data.Nat.Basic
/-!
# numpy arrays with explicit shape, C (row-major) order
-/

namespace Verif.Np
open Verif

/-- An array: shape plus flat data in C order. -/
structure NdArray (α : Type _) where
  shape : List ℕ
  data : List α
  size_eq : data.length = shape.prod
  
namespace NdArray
variable {α : Type _}

/-- C-order offset of a multi-index. -/
def flatIdx : List ℕ → List ℕ → ℕ
  | _ :: ds, i :: is => i * ds.prod + flatIdx ds is
  | _, _ => 0

/-- Multi-index is in bounds for the shape (and of the same length). -/
def InBounds (shape idx : List ℕ) : Prop := List.Forall₂ (fun i d => i < d) idx shape

instance (shape idx : List ℕ) : Decidable (InBounds shape idx) := by
  unfold InBounds; infer_instance

/-- Element access `a[idx]`; `none` is numpy's IndexError. -/
def get? (a : NdArray α) (idx : List ℕ) : Option α :=
  if InBounds a.shape idx then a.data[flatIdx a.shape idx]? else none

/-- `a.reshape(shape)`: same data, new shape; ValueError if the sizes do not match. -/
def reshape (a : NdArray α) (shape : List ℕ) : PyM (NdArray α) :=
  if h : a.data.length = shape.prod then .ok ⟨shape, a.data, h⟩ else .error .valueError

/-- `a.ravel()` -/
def ravel (a : NdArray α) : NdArray α := ⟨[a.data.length], a.data, by simp⟩

end NdArray
end Verif.Np
