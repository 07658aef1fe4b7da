import Verif.Spec.Kronecker
import Verif.Lemmas.Quadrature
import Verif.Lemmas.Interpolate
import Verif.Props.Tabulation

/-!
# Element matrices as sums over the points of a rule
-/

namespace FInAT

open Spec

variable {K : Type} [CommRing K]

theorem formEntry_eq {q : QRule K} (h : RuleOK q) (hn : (q.pointSet.indices.map Index.id).Nodup) {W t s : Gem K}
    (hW : ∀ ρ, W.eval ρ [] = weightAt q (q.pointSet.indices.map fun i => ρ i.id)) {a b : List Nat}
    {f g : List K → K} (hf : ∀ ρ, q.pointSet.Valid ρ → t.eval ρ a = f (q.pointSet.pointAt ρ))
    (hg : ∀ ρ, q.pointSet.Valid ρ → s.eval ρ b = g (q.pointSet.pointAt ρ)) (ρ : Nat → Nat) :
    formEntry W q.pointSet ρ t s a b = iterSum q fun x => f x * g x := by
  rw [← quadSum_eq h hn hW ρ]
  refine lsum_congr fun v hv => ?_
  have hV := PSet.valid_bindIx hn ρ (mem_ndindex.1 hv)
  rw [hf _ hV, hg _ hV]

/-- What is needed of an entry to multiply it with those of other factors. -/
structure EntryOK (φ : LeafVals K) (ρ : Nat → Nat) (e : FactorEntry K) (c : Cell) : Prop where
  dim : sdim e.run.elem = c.spatialDim
  α : e.α.length = c.spatialDim
  β : e.β.length = c.spatialDim
  i : e.i.length = e.run.elem.indexShape.length
  j : e.j.length = e.run.elem.indexShape.length
  z : e.z.length = (vshape e.run.elem).length
  w : e.w.length = (vshape e.run.elem).length
  width : ∀ x ∈ e.run.rule.pointSet.pts, x.length = c.spatialDim
  value : e.value ρ = iterSum e.run.rule fun x => basisValue φ e.run.elem e.α (c.dimension, 0) x e.i e.z *
    basisValue φ e.run.elem e.β (c.dimension, 0) x e.j e.w

theorem kronecker {φ : LeafVals K} {ρ : Nat → Nat} : ∀ {es : List (FactorEntry K)} {cs : List Cell},
    List.Forall₂ (EntryOK φ ρ) es cs →
    iterSumL (es.map fun e => e.run.rule) (fun x =>
      prodValue φ (es.map fun e => e.run.elem) (es.map FactorEntry.α).flatten (cs.map fun c => (c.dimension, 0)) x
        (es.map FactorEntry.i).flatten (es.map FactorEntry.z).flatten *
      prodValue φ (es.map fun e => e.run.elem) (es.map FactorEntry.β).flatten (cs.map fun c => (c.dimension, 0)) x
        (es.map FactorEntry.j).flatten (es.map FactorEntry.w).flatten) =
    (es.map fun e => e.value ρ).prod
  | [], [], .nil => by simp [iterSumL, prodValue]
  | e :: es, c :: cs, .cons h hs => by
    have H := kronecker hs
    simp only [List.map_cons, List.flatten_cons, List.prod_cons, iterSumL]
    rw [← H, h.value, mul_comm, ← iterSum_mul]
    refine hasDim_of_pts h.width _ _ fun x hx => ?_
    rw [mul_comm, ← iterSumL_mul]
    congr 1
    funext y
    simp only [prodValue, Cell.total_dimension, h.dim, List.take_left' h.α, List.drop_left' h.α, List.take_left' h.β,
      List.drop_left' h.β, List.take_left' h.i, List.drop_left' h.i, List.take_left' h.j, List.drop_left' h.j,
      List.take_left' h.z, List.drop_left' h.z, List.take_left' h.w, List.drop_left' h.w, List.take_left' hx,
      List.drop_left' hx]
    ring

end FInAT
