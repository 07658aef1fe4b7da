import Verif.Model.Elem

/-!
# Entity permutations of enriched elements
-/

namespace FInAT

/-- `entity_permutations`: dimension, entity, orientation, permutation list. Orientations are integers
or tuples of integers (products).
Source: `finat/enriched.py` 193-203. -/
abbrev PermMap := EntityMap (Dict Dim (List Nat))

/-- `finat/enriched.py:199-202`: the loop over the orientations of one entity of one element,
```
for o, p in o_p_map.items():
    o_e_dim_permutations = e_dim_permutations.setdefault(o, [])
    offset = len(o_e_dim_permutations)
    o_e_dim_permutations += list(offset + q for q in p)
``` -/
def concatOrientations (acc : Dict Dim (List Nat)) (d : Dict Dim (List Nat)) : Dict Dim (List Nat) :=
  d.foldl (fun acc q =>
    let old := (acc.get? q.1).getD []
    acc.set q.1 (old ++ q.2.map (old.length + ·))) acc

/-- `finat/enriched.py:197-202`: the loop over the entities of one dimension of one element. -/
def concatEntityPerms (acc : Dict Nat (Dict Dim (List Nat))) (d : Dict Nat (Dict Dim (List Nat))) :
    Dict Nat (Dict Dim (List Nat)) :=
  d.foldl (fun acc q => acc.set q.1 (concatOrientations ((acc.get? q.1).getD []) q.2)) acc

/-- `finat/enriched.py:195-202`: the loop over the dimensions of one element. -/
def concatDimPerms (acc : PermMap) (d : PermMap) : PermMap :=
  d.foldl (fun acc q => acc.set q.1 (concatEntityPerms ((acc.get? q.1).getD []) q.2)) acc

/-- `concatenate_entity_permutations(elements)`, `finat/enriched.py:184-203`; the argument is the list
of the dictionaries `element.entity_permutations`. The in-place updates of nested dictionaries are
written back with `Dict.set`. -/
def concatenateEntityPermutations (ds : List PermMap) : PermMap :=
  ds.foldl concatDimPerms []

end FInAT
