import Verif.Model.Ufl.Pickle
import Verif.Spec.UflConstant
import Verif.Lemmas.Ufl.Reconstruct

/-!
# Lemmas for C106: pickling UFL elements
-/

namespace FInAT.Ufl

/-- On an object of `WithMapping` without attributes, looking up any name that the class
does not define never ends. -/
theorem getAttr_fresh {names : List String} (hw : "wrapee" ∉ names) :
    ∀ (n : Nat) {a : String}, a ∉ names → getAttr n (.remapped none names) a = .error .runtimeError
  | 0, _, _ => rfl
  | n + 1, a, ha => by
    rw [getAttr, if_neg (by simp [ha]), getAttr_fresh hw n hw]
    rfl

theorem putState_plain {n : Nat} (h : 0 < n) (e : UElem) :
    putState n (.plain []) e = .ok e := by
  obtain ⟨k, rfl⟩ : ∃ k, n = k + 1 := ⟨n - 1, by omega⟩
  simp [putState, getAttr]

theorem putState_remapped (n : Nat) (e : UElem) :
    putState n (.remapped none mappedNames) e = .error .runtimeError := by
  rw [putState, getAttr_fresh (by decide) n (by decide)]

/-- Calling `FiniteElement` is calling `__new__`, and `__init__` when that returned a new
object. -/
theorem newFe_eq (f : String) (o : Order) (k : Option Int) (q v : Option String)
    (c : Option UCell) : newFe f o k q v c = (do
      match ← feNew f o k q v c with
      | none => mkFe f c o k q v
      | some e => .ok e) := by
  match c with
  | none => rfl
  | some (.named n) => rw [newFe, newFeOn]; rfl
  | some (.tensor cs) =>
    have hmap : ∀ (x : Except Err UElem) (g : Except Err UElem),
        (do match ← (some <$> x) with
            | none => g
            | some e => .ok e) = x := by
      intro x g; cases x <;> rfl
    rw [newFe, newFeOn, feNew]
    cases hd : canonicalElementDescription f (some (.tensor cs)) o k with
    | error e => rfl
    | ok d =>
      simp only [bind, Except.bind]
      split
      · exact (hmap _ _).symm
      split
      · exact (hmap _ _).symm
      split
      · exact (hmap _ _).symm
      split
      · exact (hmap _ _).symm
      split
      · cases newFes "CG" "CG" d.order v cs with
        | error e => rfl
        | ok subs => exact (hmap _ _).symm
      split
      · cases newFes "DG" "DQ" d.order v cs with
        | error e => rfl
        | ok subs => exact (hmap _ _).symm
      split
      · cases newFes "DG L2" "DQ L2" d.order v cs with
        | error e => rfl
        | ok subs => exact (hmap _ _).symm
      · rfl

/-- What `__new__` returns instead of a new object is not a simple element. -/
theorem feNew_some {f : String} {o : Order} {k : Option Int} {q v : Option String}
    {c : Option UCell} {e : UElem} (h : feNew f o k q v c = .ok (some e)) :
    (∃ b subs, e = .product b subs) ∨ ∃ b subs, e = .enriched b false subs := by
  have hmap : ∀ {x : Except Err UElem}, some <$> x = .ok (some e) → x = .ok e := by
    intro x hx
    cases x with
    | error y => cases hx
    | ok y => cases hx; rfl
  have hp : ∀ {subs : List UElem} {cs : List UCell},
      some <$> mkProduct subs (some (.tensor cs)) = .ok (some e) →
      (∃ b subs, e = .product b subs) ∨ ∃ b subs, e = .enriched b false subs := by
    intro subs cs hx
    obtain ⟨c', ss, he, -⟩ := mkProduct_ok (hmap hx)
    exact .inl ⟨_, _, he⟩
  have he : ∀ {subs : List UElem}, mkEnriched false subs = .ok e →
      (∃ b subs, e = .product b subs) ∨ ∃ b subs, e = .enriched b false subs := by
    intro subs hx
    obtain ⟨_, _, b, -, he, -⟩ := mkEnriched_ok hx
    exact .inr ⟨_, _, he⟩
  have hrt : ∀ {w : UElem → Except Err UElem} {cs : List UCell} {o : Order},
      some <$> expandRT w cs o v = .ok (some e) →
      (∃ b subs, e = .product b subs) ∨ ∃ b subs, e = .enriched b false subs := by
    intro w cs o hx
    have h := hmap hx
    unfold expandRT at h
    obtain ⟨_, -, h⟩ := bind_ok h
    obtain ⟨_, -, h⟩ := bind_ok h
    obtain ⟨_, -, h⟩ := bind_ok h
    obtain ⟨_, -, h⟩ := bind_ok h
    obtain ⟨_, -, h⟩ := bind_ok h
    obtain ⟨_, -, h⟩ := bind_ok h
    obtain ⟨_, -, h⟩ := bind_ok h
    obtain ⟨_, -, h⟩ := bind_ok h
    exact he h
  have hnc : ∀ {w : UElem → Except Err UElem} {f1 f2 : String} {l1 l2 : Bool}
      {cs : List UCell} {o : Order},
      some <$> expandNC w f1 f2 l1 l2 cs o v = .ok (some e) →
      (∃ b subs, e = .product b subs) ∨ ∃ b subs, e = .enriched b false subs := by
    intro w f1 f2 l1 l2 cs o hx
    have h := hmap hx
    unfold expandNC at h
    obtain ⟨_, -, h⟩ := bind_ok h
    obtain ⟨_, -, h⟩ := bind_ok h
    obtain ⟨_, -, h⟩ := bind_ok h
    obtain ⟨_, -, h⟩ := bind_ok h
    obtain ⟨_, -, h⟩ := bind_ok h
    obtain ⟨_, -, h⟩ := bind_ok h
    obtain ⟨_, -, h⟩ := bind_ok h
    obtain ⟨_, -, h⟩ := bind_ok h
    obtain ⟨_, -, h⟩ := bind_ok h
    obtain ⟨_, -, h⟩ := bind_ok h
    exact he h
  match c, h with
  | none, h => cases h
  | some (.named _), h => cases h
  | some (.tensor cs), h =>
    rw [feNew] at h
    obtain ⟨d, -, h⟩ := bind_ok h
    split at h
    · exact hrt h
    split at h
    · exact hrt h
    split at h
    · exact hnc h
    split at h
    · exact hnc h
    split at h
    · obtain ⟨subs, -, h⟩ := bind_ok h
      exact hp h
    split at h
    · obtain ⟨subs, -, h⟩ := bind_ok h
      exact hp h
    split at h
    · obtain ⟨subs, -, h⟩ := bind_ok h
      exact hp h
    · cases h

/-- A simple element is loaded as it was. -/
theorem reloadFe_ok {n : Nat} (hn : 0 < n) {b : Base} {o : Order} {so : Sobolev} {m : String}
    {v : Option String} {emb : Order} (h : Good (.fe b o so m v emb)) :
    reloadFe n b o so m v emb = .ok (.fe b o so m v emb) := by
  have hf := h.fixed
  unfold Fixed at hf
  rw [reconstruct, newFe_eq] at hf
  obtain ⟨r, hr, hf⟩ := bind_ok hf
  unfold reloadFe getNewArgs
  simp only
  rw [hr]
  cases r with
  | none => exact putState_plain hn _
  | some e =>
    exfalso
    cases hf
    rcases feNew_some hr with ⟨_, _, h⟩ | ⟨_, _, h⟩ <;> cases h

mutual
theorem reload_ok {n : Nat} (hn : 0 < n) : ∀ (e : UElem), Good e → NoRemap e →
    reload n e = .ok e
  | .fe b o so m v emb, hg, _ => by rw [reload]; exact reloadFe_ok hn hg
  | .mixed b subs, hg, hr => by
    rw [reload, reloads_ok hn subs hg.sub hr]; exact putState_plain hn _
  | .vector b e dim v, hg, hr => by
    rw [reload, reload_ok hn e (hg.sub e (by simp [children])) hr]; exact putState_plain hn _
  | .tensor b e _ _ _ _ _ _, hg, hr => by
    rw [reload, reload_ok hn e (hg.sub e (by simp [children])) hr]; exact putState_plain hn _
  | .product b subs, hg, hr => by
    rw [reload, reloads_ok hn subs hg.sub hr]; exact putState_plain hn _
  | .enriched b _ subs, hg, hr => by
    rw [reload, reloads_ok hn subs hg.sub hr]; exact putState_plain hn _
  | .hdiv b e, hg, hr => by
    rw [reload, reload_ok hn e (hg.sub e (by simp [children])) hr]; exact putState_plain hn _
  | .hcurl b e, hg, hr => by
    rw [reload, reload_ok hn e (hg.sub e (by simp [children])) hr]; exact putState_plain hn _
  | .withMapping e _, _, hr => by rw [NoRemap] at hr; exact hr.elim
  | .restricted b e _, hg, hr => by
    rw [reload, reload_ok hn e (hg.sub e (by simp [children])) hr]; exact putState_plain hn _
  | .broken b e, hg, hr => by
    rw [reload, reload_ok hn e (hg.sub e (by simp [children])) hr]; exact putState_plain hn _
theorem reloads_ok {n : Nat} (hn : 0 < n) : ∀ (es : List UElem), (∀ e ∈ es, Good e) →
    NoRemaps es → reloads n es = .ok es
  | [], _, _ => by rw [reloads]
  | e :: es, hg, hr => by
    rw [NoRemaps] at hr
    rw [reloads, reload_ok hn e (hg e List.mem_cons_self) hr.1,
      reloads_ok hn es (fun x hx => hg x (List.mem_cons_of_mem _ hx)) hr.2]
    rfl
end

mutual
theorem reload_remapped {n : Nat} (hn : 0 < n) : ∀ (e : UElem), Good e → ¬ NoRemap e →
    reload n e = .error .runtimeError
  | .fe .., _, hr => by rw [NoRemap] at hr; exact (hr trivial).elim
  | .mixed b subs, hg, hr => by
    rw [reload, reloads_remapped hn subs hg.sub hr]; rfl
  | .vector b e dim v, hg, hr => by
    rw [reload, reload_remapped hn e (hg.sub e (by simp [children])) hr]; rfl
  | .tensor b e _ _ _ _ _ _, hg, hr => by
    rw [reload, reload_remapped hn e (hg.sub e (by simp [children])) hr]; rfl
  | .product b subs, hg, hr => by
    rw [reload, reloads_remapped hn subs hg.sub hr]; rfl
  | .enriched b _ subs, hg, hr => by
    rw [reload, reloads_remapped hn subs hg.sub hr]; rfl
  | .hdiv b e, hg, hr => by
    rw [reload, reload_remapped hn e (hg.sub e (by simp [children])) hr]; rfl
  | .hcurl b e, hg, hr => by
    rw [reload, reload_remapped hn e (hg.sub e (by simp [children])) hr]; rfl
  | .withMapping e m, hg, _ => by
    rw [reload]
    by_cases h : NoRemap e
    · rw [reload_ok hn e (hg.sub e (by simp [children])) h]; exact putState_remapped n _
    · rw [reload_remapped hn e (hg.sub e (by simp [children])) h]; rfl
  | .restricted b e _, hg, hr => by
    rw [reload, reload_remapped hn e (hg.sub e (by simp [children])) hr]; rfl
  | .broken b e, hg, hr => by
    rw [reload, reload_remapped hn e (hg.sub e (by simp [children])) hr]; rfl
theorem reloads_remapped {n : Nat} (hn : 0 < n) : ∀ (es : List UElem), (∀ e ∈ es, Good e) →
    ¬ NoRemaps es → reloads n es = .error .runtimeError
  | [], _, hr => by rw [NoRemaps] at hr; exact (hr trivial).elim
  | e :: es, hg, hr => by
    rw [NoRemaps] at hr
    rw [reloads]
    by_cases h : NoRemap e
    · rw [reload_ok hn e (hg e List.mem_cons_self) h,
        reloads_remapped hn es (fun x hx => hg x (List.mem_cons_of_mem _ hx))
          (fun h2 => hr ⟨h, h2⟩)]
      rfl
    · rw [reload_remapped hn e (hg e List.mem_cons_self) h]; rfl
end

end FInAT.Ufl
