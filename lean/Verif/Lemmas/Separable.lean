import Verif.Spec.Separable
import Verif.Lemmas.Interpolate
import Verif.Props.Dual

/-!
# Linearity, locality and separability of interpolation
-/

namespace FInAT

open Spec Elem Props

variable {K : Type} [CommRing K]

theorem isDualBasis_linear {Q : Gem K} {ps : PSet K} {is vs : List Nat}
    {L : List Nat → (List K → List Nat → K) → K} (h : IsDualBasis Q ps is vs L) {i : List Nat} (hi : InB i is)
    (a b : K) (f g : List K → List Nat → K) :
    L i (fun x z => a * f x z + b * g x z) = a * L i f + b * L i g := by
  have h1 := fun f => h.contract (fun _ => 0) i f hi
  rw [← h1, ← h1, ← h1]
  show (lsum _ fun v => lsum _ fun z => _) = a * (lsum _ fun v => lsum _ fun z => _) +
    b * (lsum _ fun v => lsum _ fun z => _)
  rw [← lsum_mul_left, ← lsum_mul_left, ← lsum_add]
  refine lsum_congr fun v _ => ?_
  rw [← lsum_mul_left, ← lsum_mul_left, ← lsum_add]
  exact lsum_congr fun z _ => by ring

theorem isDualBasis_local {Q : Gem K} {ps : PSet K} {is vs : List Nat} {n : Nat}
    {L : List Nat → (List K → List Nat → K) → K} (h : IsDualBasis Q ps is vs L) (hw : ps.WF n)
    {i : List Nat} (hi : InB i is)
    (f g : List K → List Nat → K) (hfg : ∀ x ∈ ps.pts, ∀ z, InB z vs → f x z = g x z) : L i f = L i g := by
  have h1 := fun f => h.contract (fun _ => 0) i f hi
  rw [← h1, ← h1]
  show (lsum _ fun v => lsum _ fun z => _) = (lsum _ fun v => lsum _ fun z => _)
  refine lsum_congr fun v hv => lsum_congr fun z hz => ?_
  rw [hfg _ (PSet.pointAt_mem hw _) z (mem_ndindex.1 hz)]
  exact PSet.valid_bindIx h.distinct _ (mem_ndindex.1 hv)

theorem indexShapeL_pieces : ∀ parts : List (Piece K),
    (parts.map fun p => p.elem.indexShape) = Elem.indexShapeL (parts.map (·.elem))
  | [] => rfl
  | p :: ps => by simp only [List.map_cons, Elem.indexShapeL, indexShapeL_pieces ps]

theorem productFunction_congr {ρ ρ' : Nat → Nat} : ∀ parts : List (Piece K),
    (∀ p ∈ parts, p.func ρ = p.func ρ') → productFunction ρ parts = productFunction ρ' parts
  | [], _ => rfl
  | p :: ps, h => by
    funext x z
    simp only [productFunction, h p List.mem_cons_self,
      productFunction_congr ps fun q hq => h q (List.mem_cons_of_mem _ hq)]

theorem inB_flatten : ∀ {is ss : List (List Nat)}, List.Forall₂ InB is ss → InB is.flatten ss.flatten
  | _, _, .nil => .nil
  | _, _, .cons h t => by
    simp only [List.flatten_cons]
    exact InB.append h (inB_flatten t)

theorem prodDual_separable {φ : LeafVals K} {ψ : LeafDuals K} (ρ : Nat → Nat) :
    ∀ {parts : List (Piece K)} {cs : List Cell} {ss is : List (List Nat)},
    (∀ p ∈ parts, Shaped p.elem) → Elem.cellL (parts.map (·.elem)) = .ok cs →
    Elem.valueShapeL (parts.map (·.elem)) = .ok ss →
    DualPairL φ ψ (parts.map (·.elem)) → List.Forall₂ InB is (Elem.indexShapeL (parts.map (·.elem))) →
    prodDualValue ψ (parts.map (·.elem)) is.flatten (productFunction ρ parts) =
      (List.zipWith (fun p i => dualValue ψ p.elem i (p.func ρ)) parts is).prod
  | [], _, _, is, _, _, _, _, hi => by
    simp only [List.map_nil, Elem.indexShapeL] at hi
    cases hi
    simp [prodDualValue, productFunction]
  | p :: parts, cs, ss, is, hs, hc, hv, hp, hi => by
    simp only [List.map_cons, Elem.indexShapeL] at hi
    cases hi with
    | @cons i _ is _ hi his =>
    simp only [List.map_cons] at hc hv
    obtain ⟨c, cs', hc1, hcs, rfl⟩ := cellL_cons hc
    obtain ⟨vs, ss', hv1, hss, rfl⟩ := valueShapeL_cons hv
    simp only [List.map_cons, DualPairL] at hp
    have ih := prodDual_separable ρ (fun q hq => hs q (List.mem_cons_of_mem _ hq)) hcs hss hp.2 his
    have h1 := lawful_dual (hs p List.mem_cons_self) hp.1 hc1 hv1 hi
    have h2 := lawful_prod (i := is.flatten) (fun g hg => by
      obtain ⟨q, hq, rfl⟩ := List.mem_map.1 hg
      exact hs q (List.mem_cons_of_mem _ hq)) hp.2 hcs hss (inB_flatten his)
    have hl := InB.length hi
    simp only [List.map_cons, prodDualValue, List.flatten_cons, List.zipWith_cons_cons, List.prod_cons,
      List.take_left' hl, List.drop_left' hl]
    rw [← ih, mul_comm, ← h1.smul]
    refine h1.congr _ _ fun x z hx hz => ?_
    have hz' := InB.length hz
    rw [mul_comm, ← h2.smul]
    refine h2.congr _ _ fun y w _ _ => ?_
    simp only [productFunction, sdim_eq hc1, vshape_eq hv1, List.take_left' hx, List.drop_left' hx,
      List.take_left' hz', List.drop_left' hz']

end FInAT
