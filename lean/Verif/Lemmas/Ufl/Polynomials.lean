import Verif.Spec.UflPolynomials
import Verif.Lemmas.Ufl.Constant

/-!
# Lemmas on the polynomials in the space of a UFL element
-/

namespace FInAT.Ufl

open FInAT FInAT.Spec UElem

variable {K : Type} [Field K]

/-! ## Monomials -/

/-- The exponents of a product of monomials in the first `d` and in the other coordinates. -/
def joinExp : Nat → List Nat → List Nat → List Nat
  | 0, _, β => β
  | d + 1, α, β => α.headD 0 :: joinExp d α.tail β

theorem monoVal_nil (α : List Nat) : monoVal ([] : List K) α = 1 := by cases α <;> rfl

theorem monoVal_nil' (x : List K) : monoVal x [] = 1 := by cases x <;> rfl

theorem monoVal_join : ∀ (d : Nat) (x : List K) (α β : List Nat),
    monoVal (x.take d) α * monoVal (x.drop d) β = monoVal x (joinExp d α β)
  | 0, x, α, β => by simp [joinExp, monoVal_nil]
  | d + 1, [], α, β => by simp [monoVal_nil]
  | d + 1, y :: x, [], β => by
    have := monoVal_join d x [] β
    rw [monoVal_nil', one_mul] at this
    simp [joinExp, monoVal, this]
  | d + 1, y :: x, a :: α, β => by
    have := monoVal_join d x α β
    simp only [List.take_succ_cons, List.drop_succ_cons, joinExp, monoVal, List.headD_cons, List.tail_cons]
    rw [← this, mul_assoc]

theorem joinExp_sum : ∀ (d : Nat) (α β : List Nat), (joinExp d α β).sum ≤ α.sum + β.sum
  | 0, α, β => by simp [joinExp]
  | d + 1, [], β => by simpa [joinExp] using joinExp_sum d [] β
  | d + 1, a :: α, β => by
    have := joinExp_sum d α β
    simp only [joinExp, List.headD_cons, List.tail_cons, List.sum_cons]
    omega

theorem monoVal_split : ∀ (d : Nat) (x : List K) (α : List Nat),
    monoVal x α = monoVal (x.take d) (α.take d) * monoVal (x.drop d) (α.drop d)
  | 0, x, α => by simp [monoVal_nil]
  | d + 1, [], α => by simp [monoVal_nil]
  | d + 1, y :: x, [] => by simp [monoVal_nil']
  | d + 1, y :: x, a :: α => by
    simp only [List.take_succ_cons, List.drop_succ_cons, monoVal]
    rw [mul_assoc, ← monoVal_split d x α]

/-! ## Polynomials of bounded degree -/

theorem poly_mono {q r : Int} (h : q ≤ r) : Poly K q ≤ Poly K r :=
  Submodule.span_mono fun _ ⟨α, hα, hp⟩ => ⟨α, hα.trans h, hp⟩

theorem polys_mono {q r : Int} (h : q ≤ r) : Polys K q ≤ Polys K r := fun _ hf c => poly_mono h (hf c)

theorem poly_mul {q r : Int} {d : Nat} {f g : List K → K} (hf : f ∈ Poly K q) (hg : g ∈ Poly K r) :
    (fun x => f (x.take d) * g (x.drop d)) ∈ Poly K (q + r) := by
  refine Submodule.span_induction (p := fun f _ => (fun x => f (x.take d) * g (x.drop d)) ∈ Poly K (q + r))
    ?_ ?_ ?_ ?_ hf
  · rintro _ ⟨α, hα, rfl⟩
    refine Submodule.span_induction
      (p := fun g _ => (fun x => monoVal (x.take d) α * g (x.drop d)) ∈ Poly K (q + r)) ?_ ?_ ?_ ?_ hg
    · rintro _ ⟨β, hβ, rfl⟩
      refine Submodule.subset_span ⟨joinExp d α β, ?_, funext fun x => monoVal_join d x α β⟩
      have := joinExp_sum d α β
      omega
    · simp only [Pi.zero_apply, mul_zero]
      exact (Poly K (q + r)).zero_mem
    · intro a b _ _ ha hb
      have := (Poly K (q + r)).add_mem ha hb
      convert this using 1
      funext x
      simp [mul_add]
    · intro a b _ hb
      have := (Poly K (q + r)).smul_mem a hb
      convert this using 1
      funext x
      simp only [Pi.smul_apply, smul_eq_mul]
      ring
  · simp only [Pi.zero_apply, zero_mul]
    exact (Poly K (q + r)).zero_mem
  · intro a b _ _ ha hb
    have := (Poly K (q + r)).add_mem ha hb
    convert this using 1
    funext x
    simp [add_mul]
  · intro a b _ hb
    have := (Poly K (q + r)).smul_mem a hb
    convert this using 1
    funext x
    simp only [Pi.smul_apply, smul_eq_mul]
    ring

theorem productFunctions_le {q r : Int} {d n : Nat} {A B : Submodule K (Fn K)} (hA : A ≤ Polys K q) (hB : B ≤ Polys K r) :
    productFunctions d n A B ≤ Polys K (q + r) := by
  refine Submodule.span_le.2 ?_
  rintro _ ⟨f, hf, g, hg, rfl⟩ c
  exact poly_mul (hA hf (c / n)) (hB hg (c % n))

theorem block_le {q : Int} {off n : Nat} {A : Submodule K (Fn K)} (hA : A ≤ Polys K q) :
    A.map (block off n) ≤ Polys K q := by
  rintro _ ⟨f, hf, rfl⟩ c
  by_cases h : off ≤ c ∧ c < off + n
  · simpa [block, h] using hA hf (c - off)
  · simp only [block, h, LinearMap.coe_mk, AddHom.coe_mk, if_false]
    exact (Poly K q).zero_mem

theorem place_le {q : Int} {p : Nat → Option (Bool × Nat)} {A : Submodule K (Fn K)} (hA : A ≤ Polys K q) :
    A.map (place p) ≤ Polys K q := by
  rintro _ ⟨f, hf, rfl⟩ c
  simp only [place, LinearMap.coe_mk, AddHom.coe_mk]
  cases h : p c with
  | none => exact (Poly K q).zero_mem
  | some r =>
    cases hr : r.1 with
    | false => simpa [hr] using hA hf r.2
    | true =>
      simp only [hr, if_true]
      exact (Poly K q).neg_mem (hA hf r.2)

theorem blocks_le {G : Spaces K} {q : Int} : ∀ {es : List UElem} {off : Nat}, (∀ e ∈ es, functions G e ≤ Polys K q) →
    blocks G off es ≤ Polys K q
  | [], _, _ => by rw [blocks]; exact bot_le
  | e :: es, off, h => by
    rw [blocks]
    exact sup_le (block_le (h e List.mem_cons_self)) (blocks_le fun x hx => h x (List.mem_cons_of_mem _ hx))

theorem sums_le {G : Spaces K} {S : Submodule K (Fn K)} : ∀ {es : List UElem}, (∀ e ∈ es, functions G e ≤ S) → sums G es ≤ S
  | [], _ => by rw [sums]; exact bot_le
  | e :: es, h => by
    rw [sums]
    exact sup_le (h e List.mem_cons_self) (sums_le fun x hx => h x (List.mem_cons_of_mem _ hx))

theorem products_le {G : Spaces K} : ∀ {es : List UElem} {rs : List Int}, es.map UElem.degree = rs.map .int →
    (∀ e ∈ es, ∀ r : Int, e.degree = .int r → functions G e ≤ Polys K r) → products G es ≤ Polys K rs.sum
  | [], [], _, _ => by
    rw [products]
    refine Submodule.span_le.2 ?_
    rintro _ rfl c
    by_cases h : c = 0
    · refine Submodule.subset_span ⟨[], by simp, ?_⟩
      funext x
      simp [term, h]
    · simp only [term, if_neg h]
      exact (Poly K _).zero_mem
  | e :: es, r :: rs, hr, h => by
    simp only [List.map_cons, List.cons.injEq] at hr
    rw [products, List.sum_cons]
    exact productFunctions_le (h e List.mem_cons_self r hr.1) (products_le hr.2 fun x hx => h x (List.mem_cons_of_mem _ hx))
  | [], _ :: _, hr, _ => by simp at hr
  | _ :: _, [], hr, _ => by simp at hr

theorem map_bot_eq {f : Fn K →ₗ[K] Fn K} {A : Submodule K (Fn K)} (h : A = ⊥) : A.map f = ⊥ := by
  rw [h, Submodule.map_bot]

theorem blocks_bot {G : Spaces K} : ∀ {es : List UElem} {off : Nat}, (∀ e ∈ es, functions G e = ⊥) → blocks G off es = ⊥
  | [], _, _ => by rw [blocks]
  | e :: es, off, h => by
    rw [blocks, h e List.mem_cons_self, Submodule.map_bot, blocks_bot fun x hx => h x (List.mem_cons_of_mem _ hx), sup_bot_eq]

theorem iSup_map_bot {n k : Nat} {A : Submodule K (Fn K)} (h : A = ⊥) :
    (⨆ i : Fin n, A.map (block (i * k) k)) = ⊥ := by
  simp [h]

theorem iSup_map_le {n k : Nat} {q : Int} {A : Submodule K (Fn K)} (h : A ≤ Polys K q) :
    (⨆ i : Fin n, A.map (block (i * k) k)) ≤ Polys K q := iSup_le fun _ => block_le h

/-- The functions of an element whose degree is a number have that degree at most. -/
theorem degree_bounds {G : Spaces K} {e : UElem} (h : Good e) : (∀ l ∈ simpleParts e, Told l) →
    (∀ l ∈ simpleParts e, ∀ q : Int, embeddedSuper l = .ok (.int q) → G.simple l ≤ Polys K q) →
    (e.degree = .none → functions G e = ⊥) ∧ ∀ r : Int, e.degree = .int r → functions G e ≤ Polys K r := by
  induction h with
  | @intro e fixed sub ih =>
  have hg : Good e := .intro fixed sub
  intro ht hs
  match e, hg, ih, ht, hs with
  | .fe b o so m v emb, hg, ih, ht, hs =>
    obtain ⟨k, h1, _, h3⟩ := ht _ (by rw [simpleParts]; exact List.mem_singleton.2 rfl)
    rw [h1]
    refine ⟨fun h => absurd h (by simp), fun r hr => ?_⟩
    cases hr
    rw [functions]
    exact hs _ (by rw [simpleParts]; exact List.mem_singleton.2 rfl) k h3
  | .mixed b subs, hg, ih, ht, hs =>
    rw [simpleParts] at ht hs
    have hd := mixed_degree hg
    have ih' := fun (s : UElem) (hs' : s ∈ subs) => ih s (by simpa [children] using hs')
      (fun l hl => ht l (mem_simplePartss.2 ⟨s, hs', hl⟩)) (fun l hl => hs l (mem_simplePartss.2 ⟨s, hs', hl⟩))
    rw [functions]
    constructor
    · intro hn
      have hn' : b.degree = .none := hn
      rw [hn'] at hd
      exact blocks_bot fun x hx => (ih' x hx).1 (mixedDegree_none hd _ (List.mem_map_of_mem hx))
    · intro r hr
      have hr' : b.degree = .int r := hr
      rw [hr'] at hd
      refine blocks_le fun x hx => ?_
      rcases (mixedDegree_int hd).1 _ (List.mem_map_of_mem (f := UElem.degree) hx) with hn | ⟨k, hk, hle⟩
      · rw [(ih' x hx).1 hn]; exact bot_le
      · exact ((ih' x hx).2 k hk).trans (polys_mono hle)
  | .vector b s dim v, hg, ih, ht, hs =>
    have hd : (UElem.vector b s dim v).degree = s.degree := vector_degree hg
    rw [simpleParts] at ht hs
    rw [functions, hd]
    by_cases h0 : dim = 0
    · subst h0
      have : (⨆ i : Fin 0, (functions G s).map (block (i * valueSize s) (valueSize s))) = ⊥ := by simp
      rw [this]
      exact ⟨fun _ => rfl, fun _ _ => bot_le⟩
    · rw [if_neg h0] at ht hs
      have := ih s (by simp [children]) ht hs
      exact ⟨fun h => iSup_map_bot (this.1 h), fun r hr => iSup_map_le (this.2 r hr)⟩
  | .tensor b s shape sym number count m v, hg, ih, ht, hs =>
    have hd : (UElem.tensor b s shape sym number count m v).degree = s.degree := (tensor_degree hg).1
    rw [simpleParts] at ht hs
    rw [functions, hd]
    by_cases h0 : count = 0
    · subst h0
      have : (⨆ i : Fin 0, (functions G s).map (block (i * valueSize s) (valueSize s))) = ⊥ := by simp
      rw [this]
      exact ⟨fun _ => rfl, fun _ _ => bot_le⟩
    · rw [if_neg h0] at ht hs
      have := ih s (by simp [children]) ht hs
      exact ⟨fun h => iSup_map_bot (this.1 h), fun r hr => iSup_map_le (this.2 r hr)⟩
  | .product b subs, hg, ih, ht, hs =>
    have hd := (product_facts hg).1
    constructor
    · intro hn
      have hn' : b.degree = .none := hn
      rw [hd] at hn'; cases hn'
    · intro r hr
      have hr' : b.degree = .int r := hr
      rw [hd] at hr'; cases hr'
  | .enriched b n subs, hg, ih, ht, hs =>
    rw [simpleParts] at ht hs
    obtain ⟨_, _, -, -, -, hd, -⟩ := enriched_facts hg
    obtain ⟨h1, h2⟩ := enrichedDegree_ok hd
    refine ⟨fun hn => absurd hn h1, fun r hr => ?_⟩
    rw [functions]
    refine sums_le fun x hx => ?_
    have ih' := ih x (by simpa [children] using hx)
      (fun l hl => ht l (mem_simplePartss.2 ⟨x, hx, hl⟩)) (fun l hl => hs l (mem_simplePartss.2 ⟨x, hx, hl⟩))
    rcases h2 r hr _ (List.mem_map_of_mem (f := UElem.degree) hx) with hn | ⟨k, hk, hle⟩
    · rw [ih'.1 hn]; exact bot_le
    · exact (ih'.2 k hk).trans (polys_mono hle)
  | .hdiv b s, hg, ih, ht, hs =>
    have hd : (UElem.hdiv b s).degree = s.degree := hdiv_degree hg
    rw [simpleParts] at ht hs
    rw [functions, hd]
    have := ih s (by simp [children]) ht hs
    exact ⟨fun h => map_bot_eq (this.1 h), fun r hr => place_le (this.2 r hr)⟩
  | .hcurl b s, hg, ih, ht, hs =>
    have hd : (UElem.hcurl b s).degree = s.degree := hcurl_degree hg
    rw [simpleParts] at ht hs
    rw [functions, hd]
    have := ih s (by simp [children]) ht hs
    exact ⟨fun h => map_bot_eq (this.1 h), fun r hr => place_le (this.2 r hr)⟩
  | .withMapping s m, hg, ih, ht, hs =>
    rw [simpleParts] at ht hs
    rw [functions]
    exact ih s (by simp [children]) ht hs
  | .restricted b s d, hg, ih, ht, hs =>
    have hd : (UElem.restricted b s d).degree = s.degree := restricted_degree hg
    rw [simpleParts] at ht hs
    rw [functions, hd]
    have := ih s (by simp [children]) ht hs
    exact ⟨fun h => by rw [this.1 h, bot_inf_eq], fun r hr => inf_le_left.trans (this.2 r hr)⟩
  | .broken b s, hg, ih, ht, hs =>
    have hd : (UElem.broken b s).degree = s.degree := broken_degree hg
    rw [simpleParts] at ht hs
    rw [functions, hd]
    exact ih s (by simp [children]) ht hs

/-! ## Python's maximum of degrees -/

theorem pyMax_int {ds : List Deg} {q : Int} (h : pyMax ds = .ok (.int q)) : ∀ d ∈ ds, ∃ k : Int, d = .int k ∧ k ≤ q := by
  intro d hd
  rcases (le_pyMax h).1 d hd with rfl | hlt
  · exact ⟨q, rfl, Int.le_refl q⟩
  · cases d with
    | int k => exact ⟨k, rfl, Deg.le_int.1 (.inr hlt)⟩
    | none => simp [Deg.lt] at hlt
    | tuple l => simp [Deg.lt] at hlt

theorem pyMin_int {ds : List Deg} {q : Int} (h : pyMin ds = .ok (.int q)) : ∀ d ∈ ds, ∃ k : Int, d = .int k ∧ q ≤ k := by
  intro d hd
  rcases pyMin_le h d hd with he | hlt
  · exact ⟨q, he.symm, Int.le_refl q⟩
  · cases d with
    | int k => exact ⟨k, rfl, Deg.le_int.1 (.inr hlt)⟩
    | none => simp [Deg.lt] at hlt
    | tuple l => simp [Deg.lt] at hlt

theorem toldBelows_mem : ∀ {es : List UElem}, ToldBelows es → ∀ e ∈ es, ToldBelow e
  | [], _, e, he => by simp at he
  | e :: es, h, x, hx => by
    rw [ToldBelows] at h
    rcases List.mem_cons.1 hx with rfl | hx
    · exact h.1
    · exact toldBelows_mem h.2 x hx

/-- The embedded superdegree bounds the degree of all functions. -/
theorem super_bounds {G : Spaces K} {e : UElem} (h : Good e) :
    (∀ l ∈ simpleParts e, ∀ q : Int, embeddedSuper l = .ok (.int q) → G.simple l ≤ Polys K q) →
    (ToldBelow e → ∀ q : Int, embeddedSuper e = .ok (.int q) → functions G e ≤ Polys K q) ∧
    ∀ b s d, e = .restricted b s d → ToldBelow s →
      ∀ q : Int, embeddedSuper s = .ok (.int q) → functions G e ≤ Polys K q := by
  induction h with
  | @intro e fixed sub ih =>
  have hg : Good e := .intro fixed sub
  intro hs
  have supers : ∀ (q : Int) (subs : List UElem) (ds : List Deg), (∀ s ∈ subs, s ∈ children e) → (∀ s ∈ subs, ToldBelow s) →
      (∀ s ∈ subs, ∀ l ∈ simpleParts s, l ∈ simpleParts e) →
      embeddedSupers subs = .ok ds → pyMax ds = .ok (.int q) → ∀ s ∈ subs, functions G s ≤ Polys K q := by
    intro q subs ds hc htb hl hds hmax s hs'
    obtain ⟨d, hd, hsd⟩ := embeddedSupers_mem hds s hs'
    obtain ⟨k, rfl, hle⟩ := pyMax_int hmax d hd
    exact ((ih s (hc s hs') (fun l hl' => hs l (hl s hs' l hl'))).1 (htb s hs') k hsd).trans (polys_mono hle)
  constructor
  swap
  · rintro b s d rfl ht q hq
    rw [simpleParts] at hs
    rw [functions]
    exact inf_le_left.trans ((ih s (by simp [children]) hs).1 ht q hq)
  intro ht q hq
  match e, hg, ih, ht, hs, hq, supers with
  | .fe b o so m v emb, hg, ih, ht, hs, hq, _ =>
    rw [functions]
    exact hs _ (by rw [simpleParts]; exact List.mem_singleton.2 rfl) q hq
  | .mixed b subs, hg, ih, ht, hs, hq, supers =>
    rw [ToldBelow] at ht
    rw [embeddedSuper] at hq
    obtain ⟨ds, h1, h2⟩ := bind_ok hq
    rw [functions]
    refine blocks_le (supers q subs ds (by simp [children]) (toldBelows_mem ht) ?_ h1 h2)
    intro s hs' l hl
    rw [simpleParts]
    exact mem_simplePartss.2 ⟨s, hs', hl⟩
  | .vector b s dim v, hg, ih, ht, hs, hq, _ =>
    rw [ToldBelow] at ht
    rw [embeddedSuper] at hq
    rw [simpleParts] at hs
    obtain ⟨ds, h1, h2⟩ := bind_ok hq
    by_cases h0 : dim = 0
    · rw [if_pos h0] at h1
      cases h1
      simp [pyMax] at h2
    · rw [if_neg h0] at h1 hs
      obtain ⟨d, h3, h1⟩ := bind_ok h1
      cases h1
      obtain ⟨k, rfl, hle⟩ := pyMax_int h2 d (by simp [h0])
      rw [functions]
      exact iSup_map_le (((ih s (by simp [children]) hs).1 ht k h3).trans (polys_mono hle))
  | .tensor b s shape sym number count m v, hg, ih, ht, hs, hq, _ =>
    rw [ToldBelow] at ht
    rw [embeddedSuper] at hq
    rw [simpleParts] at hs
    obtain ⟨ds, h1, h2⟩ := bind_ok hq
    by_cases h0 : count = 0
    · rw [if_pos h0] at h1
      cases h1
      simp [pyMax] at h2
    · rw [if_neg h0] at h1 hs
      obtain ⟨d, h3, h1⟩ := bind_ok h1
      cases h1
      obtain ⟨k, rfl, hle⟩ := pyMax_int h2 d (by simp [h0])
      rw [functions]
      exact iSup_map_le (((ih s (by simp [children]) hs).1 ht k h3).trans (polys_mono hle))
  | .product b subs, hg, ih, ht, hs, hq, _ =>
    rw [ToldBelow] at ht
    rw [simpleParts] at hs
    rw [embeddedSuper, (product_facts hg).1] at hq
    obtain ⟨rs, hrs, hsum⟩ := pySum_ok hq
    cases hsum
    rw [functions]
    refine products_le hrs fun x hx r hr => ?_
    exact (degree_bounds (hg.sub x (by simpa [children] using hx)) (fun l hl => ht l (mem_simplePartss.2 ⟨x, hx, hl⟩))
      fun l hl => hs l (mem_simplePartss.2 ⟨x, hx, hl⟩)).2 r hr
  | .enriched b n subs, hg, ih, ht, hs, hq, supers =>
    rw [ToldBelow] at ht
    rw [embeddedSuper] at hq
    obtain ⟨ds, h1, h2⟩ := bind_ok hq
    rw [functions]
    refine sums_le (supers q subs ds (by simp [children]) (toldBelows_mem ht) ?_ h1 h2)
    intro s hs' l hl
    rw [simpleParts]
    exact mem_simplePartss.2 ⟨s, hs', hl⟩
  | .hdiv b s, hg, ih, ht, hs, hq, _ =>
    rw [ToldBelow] at ht
    rw [embeddedSuper] at hq
    rw [simpleParts] at hs
    rw [functions]
    exact place_le ((ih s (by simp [children]) hs).1 ht q hq)
  | .hcurl b s, hg, ih, ht, hs, hq, _ =>
    rw [ToldBelow] at ht
    rw [embeddedSuper] at hq
    rw [simpleParts] at hs
    rw [functions]
    exact place_le ((ih s (by simp [children]) hs).1 ht q hq)
  | .withMapping s m, hg, ih, ht, hs, hq, _ =>
    rw [simpleParts] at hs
    rw [functions]
    by_cases hr : ∃ b s' d, s = .restricted b s' d
    · obtain ⟨b, s', d, rfl⟩ := hr
      rw [ToldBelow] at ht
      rw [embeddedSuper] at hq
      exact (ih _ (by simp [children]) hs).2 b s' d rfl ht q hq
    · have ht' : ToldBelow s := by
        cases s <;> first
          | exact absurd ⟨_, _, _, rfl⟩ hr
          | (rw [ToldBelow] at ht <;> first | exact ht | (intro _ _ _ h; cases h))
      have hq' : embeddedSuper s = .ok (.int q) := by
        cases s <;> first
          | exact absurd ⟨_, _, _, rfl⟩ hr
          | (rw [embeddedSuper] at hq <;> first | exact hq | (intro _ _ _ h; cases h))
      exact (ih s (by simp [children]) hs).1 ht' q hq'
  | .restricted b s d, hg, ih, ht, hs, hq, _ =>
    rw [ToldBelow] at ht
    rw [embeddedSuper] at hq
    rw [simpleParts] at hs
    rw [functions]
    refine inf_le_left.trans ((degree_bounds (hg.sub s (by simp [children])) ht hs).2 q ?_)
    rw [← restricted_degree hg]
    exact Except.ok.inj hq
  | .broken b s, hg, ih, ht, hs, hq, _ =>
    rw [ToldBelow] at ht
    rw [embeddedSuper] at hq
    rw [simpleParts] at hs
    rw [functions]
    exact (ih s (by simp [children]) hs).1 ht q hq

/-! ## Spaces with all polynomials of a degree -/

theorem allPolys_mono {d n : Nat} {q r : Int} (h : q ≤ r) : AllPolys K d n q ≤ AllPolys K d n r :=
  Submodule.span_mono fun _ ⟨α, j, h1, h2, h3, hp⟩ => ⟨α, j, h1, h2, h3.trans h, hp⟩

theorem allPolys_le {d n : Nat} {q : Int} {S : Submodule K (Fn K)} :
    AllPolys K d n q ≤ S ↔ ∀ α j, α.length ≤ d → j < n → (α.sum : Int) ≤ q → (term α j : Fn K) ∈ S := by
  constructor
  · intro h α j h1 h2 h3
    exact h (Submodule.subset_span ⟨α, j, h1, h2, h3, rfl⟩)
  · intro h
    refine Submodule.span_le.2 ?_
    rintro _ ⟨α, j, h1, h2, h3, rfl⟩
    exact h α j h1 h2 h3

theorem block_term {off n j : Nat} (α : List Nat) (h : j < n) : block off n (term α j : Fn K) = term α (off + j) := by
  funext x c
  simp only [block, term, LinearMap.coe_mk, AddHom.coe_mk]
  by_cases hc : c = off + j
  · subst hc
    rw [if_pos (by omega), if_pos (by omega), if_pos rfl]
  · rw [if_neg hc]
    by_cases hb : off ≤ c ∧ c < off + n
    · rw [if_pos hb, if_neg (by omega)]
    · rw [if_neg hb]

theorem blocks_term {G : Spaces K} {d : Nat} {p : Int} {α : List Nat} (h1 : α.length ≤ d) (h3 : (α.sum : Int) ≤ p) :
    ∀ {es : List UElem} {off j : Nat}, (∀ e ∈ es, AllPolys K d (valueSize e) p ≤ functions G e) → off ≤ j →
    j < off + (es.map valueSize).sum → (term α j : Fn K) ∈ blocks G off es
  | [], off, j, _, ho, hj => by
    exfalso
    simp at hj
    omega
  | e :: es, off, j, h, ho, hj => by
    rw [blocks]
    rw [List.map_cons, List.sum_cons] at hj
    by_cases hlt : j < off + valueSize e
    · refine Submodule.mem_sup_left ⟨term α (j - off), allPolys_le.1 (h e List.mem_cons_self) α _ h1 (by omega) h3, ?_⟩
      rw [block_term α (by omega)]
      congr 1
      omega
    · exact Submodule.mem_sup_right (blocks_term h1 h3 (fun x hx => h x (List.mem_cons_of_mem _ hx)) (by omega) (by omega))

theorem iSup_term {n k d : Nat} {p : Int} {A : Submodule K (Fn K)} (h : AllPolys K d k p ≤ A) :
    AllPolys K d (n * k) p ≤ ⨆ i : Fin n, A.map (block (i * k) k) := by
  refine allPolys_le.2 fun α j h1 h2 h3 => ?_
  have hk : 0 < k := Nat.pos_of_ne_zero (by rintro rfl; simp at h2)
  have hi : j / k < n := Nat.div_lt_of_lt_mul (by rw [Nat.mul_comm]; exact h2)
  refine Submodule.mem_iSup_of_mem ⟨j / k, hi⟩ ⟨term α (j % k), allPolys_le.1 h α _ h1 (Nat.mod_lt _ hk) h3, ?_⟩
  rw [block_term α (Nat.mod_lt _ hk)]
  congr 1
  exact Nat.div_add_mod' j k

theorem term_split (d n j : Nat) (α : List Nat) (hn : 0 < n) : (term α j : Fn K) =
    fun x c => (term (α.take d) (j / n) : Fn K) (x.take d) (c / n) * (term (α.drop d) (j % n) : Fn K) (x.drop d) (c % n) := by
  funext x c
  simp only [term]
  by_cases hc : c = j
  · subst hc
    simp only [if_true]
    exact monoVal_split d x α
  · rw [if_neg hc]
    by_cases h1 : c / n = j / n
    · by_cases h2 : c % n = j % n
      · exact absurd (by rw [← Nat.div_add_mod c n, h1, h2, Nat.div_add_mod]) hc
      · rw [if_neg h2, mul_zero]
    · rw [if_neg h1, zero_mul]

theorem products_term {G : Spaces K} {p : Int} : ∀ {es : List UElem} {α : List Nat} {j : Nat},
    (∀ e ∈ es, AllPolys K (dimOf e) (valueSize e) p ≤ functions G e) → α.length ≤ (es.map dimOf).sum →
    j < (es.map valueSize).prod → (α.sum : Int) ≤ p → (term α j : Fn K) ∈ products G es
  | [], α, j, _, h1, h2, _ => by
    rw [products]
    simp only [List.map_nil, List.sum_nil, Nat.le_zero, List.length_eq_zero_iff] at h1
    simp only [List.map_nil, List.prod_nil, Nat.lt_one_iff] at h2
    subst h1 h2
    exact Submodule.mem_span_singleton_self _
  | e :: es, α, j, h, h1, h2, h3 => by
    simp only [List.map_cons, List.sum_cons, List.prod_cons] at h1 h2
    have hn : 0 < (es.map valueSize).prod := Nat.pos_of_ne_zero (by intro h0; simp [h0] at h2)
    have hsum : (α.take (dimOf e)).sum + (α.drop (dimOf e)).sum = α.sum := by
      rw [← List.sum_append, List.take_append_drop]
    rw [products]
    refine Submodule.subset_span ⟨term (α.take (dimOf e)) (j / (es.map valueSize).prod), ?_,
      term (α.drop (dimOf e)) (j % (es.map valueSize).prod), ?_, term_split _ _ j α hn⟩
    · refine allPolys_le.1 (h e List.mem_cons_self) _ _ (by simp) (Nat.div_lt_of_lt_mul (by rw [Nat.mul_comm]; exact h2)) ?_
      omega
    · refine products_term (fun x hx => h x (List.mem_cons_of_mem _ hx)) ?_ (Nat.mod_lt _ hn) ?_
      · rw [List.length_drop]; omega
      · omega

theorem sums_mem {G : Spaces K} : ∀ {es : List UElem}, ∀ e ∈ es, functions G e ≤ sums G es
  | [], e, he => by simp at he
  | x :: es, e, he => by
    rw [sums]
    rcases List.mem_cons.1 he with rfl | he
    · exact le_sup_left
    · exact (sums_mem e he).trans le_sup_right

/-! ## Sizes -/

theorem valueSize_of {e : UElem} {s : List Nat} (h : e.shape = .ok s) : valueSize e = prodNat s := by
  rw [valueSize, h]

theorem prodNat_foldr (l : List Nat) : prodNat l = l.foldr (· * ·) 1 := rfl

theorem prodNat_append : ∀ a b : List Nat, prodNat (a ++ b) = prodNat a * prodNat b
  | [], b => by simp [prodNat_foldr]
  | x :: a, b => by
    have := prodNat_append a b
    rw [prodNat_foldr, prodNat_foldr, prodNat_foldr] at this
    simp only [prodNat_foldr, List.cons_append, List.foldr_cons, this, Nat.mul_assoc]

theorem shapes_sizes : ∀ {subs : List UElem} {ss : List (List Nat)}, shapes subs = .ok ss →
    subs.map valueSize = ss.map prodNat
  | [], ss, h => by rw [shapes] at h; cases h; rfl
  | x :: xs, ss, h => by
    rw [shapes] at h
    obtain ⟨s, hs, h⟩ := bind_ok h
    obtain ⟨ss', hss, h⟩ := bind_ok h
    cases h
    rw [List.map_cons, List.map_cons, shapes_sizes hss, valueSize_of hs]

theorem prodNat_flatten : ∀ ss : List (List Nat), prodNat ss.flatten = (ss.map prodNat).prod
  | [] => rfl
  | s :: ss => by rw [List.flatten_cons, prodNat_append, prodNat_flatten ss, List.map_cons, List.prod_cons]

theorem mixed_size {b : Base} {subs : List UElem} (hg : Good (.mixed b subs)) :
    valueSize (.mixed b subs) = (subs.map valueSize).sum := by
  have hf := hg.fixed
  unfold Fixed at hf
  rw [reconstruct, reconstructs_fixed
    (fun s hs => (hg.sub s (by simpa [children] using hs)).fixed)] at hf
  obtain ⟨b', hb, he⟩ := mkMixed_ok (subs := subs) (e := .mixed b subs) hf
  cases he
  unfold mixedBase at hb
  obtain ⟨_, -, hb⟩ := bind_ok hb
  obtain ⟨_, -, hb⟩ := bind_ok hb
  obtain ⟨ss, hss, hb⟩ := bind_ok hb
  obtain ⟨_, -, hb⟩ := bind_ok hb
  cases hb
  rw [valueSize_of (shape_stored (by simp)), shapes_sizes hss]
  simp [UElem.base, prodNat_foldr]

theorem vector_size {b : Base} {s : UElem} {dim : Nat} {v : Option String} (hg : Good (.vector b s dim v)) :
    valueSize (.vector b s dim v) = dim * valueSize s ∧ dimOf (.vector b s dim v) = dimOf s := by
  have hf := hg.fixed
  unfold Fixed at hf
  rw [reconstruct, (hg.sub s (by simp [children])).fixed] at hf
  obtain ⟨n, sh, he, -, hsh, hn⟩ := mkVectorOf_ok (s := s) (dim := some dim) (v := s.variant)
    (e := .vector b s dim v) hf
  cases he
  refine ⟨?_, rfl⟩
  rw [valueSize_of (shape_stored (by simp)), valueSize_of hsh]
  simp [UElem.base, prodNat_foldr]

theorem broken_size {b : Base} {s : UElem} (hg : Good (.broken b s)) :
    valueSize (.broken b s) = valueSize s ∧ dimOf (.broken b s) = dimOf s := by
  have hf := hg.fixed
  unfold Fixed at hf
  rw [reconstruct, (hg.sub s (by simp [children])).fixed] at hf
  obtain ⟨sh, hsh, he⟩ := mkBroken_ok (s := s) (e := .broken b s) hf
  cases he
  refine ⟨?_, rfl⟩
  rw [valueSize_of (shape_stored (by simp)), valueSize_of hsh]
  rfl

theorem product_size {b : Base} {subs : List UElem} (hg : Good (.product b subs)) :
    valueSize (.product b subs) = (subs.map valueSize).prod := by
  obtain ⟨-, -, ss, hss, -, hb⟩ := product_facts hg
  rw [valueSize_of (shape_stored (by simp)), shapes_sizes hss]
  show prodNat b.shape = _
  rw [hb, prodNat_flatten]

theorem enriched_size {b : Base} {n : Bool} {subs : List UElem} (hg : Good (.enriched b n subs)) :
    ∀ s ∈ subs, valueSize s = valueSize (.enriched b n subs) ∧ dimOf s = dimOf (.enriched b n subs) := by
  obtain ⟨e0, es, rfl, hc, hb, -, hsh0, hshs⟩ := enriched_facts hg
  have hv : valueSize (.enriched b n (e0 :: es)) = prodNat b.shape := valueSize_of (shape_stored (by simp))
  have hd : dimOf (.enriched b n (e0 :: es)) = dimOf e0 := by
    show (b.cell.map UCell.tdim).getD 0 = _
    rw [hb]; rfl
  intro s hs
  rw [hv, hd]
  rcases List.mem_cons.1 hs with rfl | hs'
  · exact ⟨valueSize_of hsh0, rfl⟩
  · obtain ⟨sh, h1, h2⟩ := shapes_mem hshs s hs'
    obtain ⟨_, -, rfl⟩ := List.mem_map.1 h1
    refine ⟨valueSize_of h2, ?_⟩
    rw [dimOf, hc s hs', dimOf]

theorem enrichedDegree_mem {ds : List Deg} {r : Int} (h : enrichedDegree ds = .ok (.int r)) : Deg.int r ∈ ds := by
  unfold enrichedDegree at h
  split at h
  · split at h
    · cases h
    · exact (List.mem_filter.1 (le_pyMax h).2).1
  · obtain ⟨x, -, h⟩ := bind_ok h
    obtain ⟨y, -, h⟩ := bind_ok h
    cases h

theorem factors_mem : ∀ {es : List UElem}, Factors es → ∀ e ∈ es, Factor e
  | [], _, e, he => by simp at he
  | e :: es, h, x, hx => by
    rw [Factors] at h
    rcases List.mem_cons.1 hx with rfl | hx
    · exact h.1
    · exact factors_mem h.2 x hx

theorem filleds_mem : ∀ {es : List UElem}, Filleds es → ∀ e ∈ es, Filled e
  | [], _, e, he => by simp at he
  | e :: es, h, x, hx => by
    rw [Filleds] at h
    rcases List.mem_cons.1 hx with rfl | hx
    · exact h.1
    · exact filleds_mem h.2 x hx

/-- An element without mixed parts whose degree is a number has all polynomials of that degree. -/
theorem degree_contains {G : Spaces K} {e : UElem} (h : Good e) : Factor e → (∀ l ∈ simpleParts e, Told l) →
    (∀ l ∈ simpleParts e, ∀ p : Int, embeddedSub l = .ok (.int p) → AllPolys K (dimOf l) (valueSize l) p ≤ G.simple l) →
    ∀ r : Int, e.degree = .int r → AllPolys K (dimOf e) (valueSize e) r ≤ functions G e := by
  induction h with
  | @intro e fixed sub ih =>
  have hg : Good e := .intro fixed sub
  intro hf ht hs r hr
  match e, hg, ih, hf, ht, hs, hr with
  | .fe b o so m v emb, hg, ih, hf, ht, hs, hr =>
    obtain ⟨k, h1, h2, _⟩ := ht _ (by rw [simpleParts]; exact List.mem_singleton.2 rfl)
    rw [h1] at hr
    have hk : k = r := by injection hr
    rw [hk] at h2
    rw [functions]
    exact hs _ (by rw [simpleParts]; exact List.mem_singleton.2 rfl) r h2
  | .mixed b subs, hg, ih, hf, ht, hs, hr => rw [Factor] at hf; exact hf.elim
  | .vector b s dim v, hg, ih, hf, ht, hs, hr =>
    have hd : (UElem.vector b s dim v).degree = s.degree := vector_degree hg
    rw [simpleParts] at ht hs
    rw [Factor] at hf
    rw [functions, (vector_size hg).1, (vector_size hg).2]
    by_cases h0 : dim = 0
    · subst h0
      refine allPolys_le.2 fun α j _ h2 _ => ?_
      simp at h2
    · rw [if_neg h0] at ht hs
      exact iSup_term (ih s (by simp [children]) hf ht hs r (hd ▸ hr))
  | .tensor b s shape sym number count m v, hg, ih, hf, ht, hs, hr =>
    have hd : (UElem.tensor b s shape sym number count m v).degree = s.degree := (tensor_degree hg).1
    rw [simpleParts] at ht hs
    rw [Factor] at hf
    rw [functions, hf.1, hf.2.1]
    by_cases h0 : count = 0
    · subst h0
      refine allPolys_le.2 fun α j _ h2 _ => ?_
      simp at h2
    · rw [if_neg h0] at ht hs
      exact iSup_term (ih s (by simp [children]) hf.2.2 ht hs r (hd ▸ hr))
  | .product b subs, hg, ih, hf, ht, hs, hr =>
    have hd := (product_facts hg).1
    have hr' : b.degree = .int r := hr
    rw [hd] at hr'; cases hr'
  | .enriched b n subs, hg, ih, hf, ht, hs, hr =>
    rw [simpleParts] at ht hs
    rw [Factor] at hf
    obtain ⟨_, _, -, -, -, hd, -⟩ := enriched_facts hg
    have hr' : b.degree = .int r := hr
    rw [hr'] at hd
    obtain ⟨x, hx, hxr⟩ := List.mem_map.1 (enrichedDegree_mem hd)
    obtain ⟨h1, h2⟩ := enriched_size hg x hx
    rw [functions, ← h1, ← h2]
    exact (ih x (by simpa [children] using hx) (factors_mem hf x hx) (fun l hl => ht l (mem_simplePartss.2 ⟨x, hx, hl⟩))
      (fun l hl => hs l (mem_simplePartss.2 ⟨x, hx, hl⟩)) r hxr).trans (sums_mem x hx)
  | .hdiv b s, hg, ih, hf, ht, hs, hr => rw [Factor] at hf; exact hf.elim
  | .hcurl b s, hg, ih, hf, ht, hs, hr => rw [Factor] at hf; exact hf.elim
  | .withMapping s m, hg, ih, hf, ht, hs, hr =>
    rw [simpleParts] at ht hs
    rw [Factor] at hf
    rw [functions, hf.1]
    exact ih s (by simp [children]) hf.2 ht hs r hr
  | .restricted b s d, hg, ih, hf, ht, hs, hr => rw [Factor] at hf; exact hf.elim
  | .broken b s, hg, ih, hf, ht, hs, hr =>
    have hd : (UElem.broken b s).degree = s.degree := broken_degree hg
    rw [simpleParts] at ht hs
    rw [Factor] at hf
    rw [functions, (broken_size hg).1, (broken_size hg).2]
    exact ih s (by simp [children]) hf ht hs r (hd ▸ hr)

/-- All polynomials of the embedded subdegree are functions of the element. -/
theorem sub_contains {G : Spaces K} {e : UElem} (h : Good e) : Filled e → ToldBelow e →
    (∀ l ∈ simpleParts e, ∀ p : Int, embeddedSub l = .ok (.int p) → AllPolys K (dimOf l) (valueSize l) p ≤ G.simple l) →
    ∀ p : Int, embeddedSub e = .ok (.int p) → AllPolys K (dimOf e) (valueSize e) p ≤ functions G e := by
  induction h with
  | @intro e fixed sub ih =>
  have hg : Good e := .intro fixed sub
  intro hf ht hs p hp
  match e, hg, ih, hf, ht, hs, hp with
  | .fe b o so m v emb, hg, ih, hf, ht, hs, hp =>
    rw [functions]
    exact hs _ (by rw [simpleParts]; exact List.mem_singleton.2 rfl) p hp
  | .mixed b subs, hg, ih, hf, ht, hs, hp =>
    rw [simpleParts] at hs
    rw [ToldBelow] at ht
    rw [Filled] at hf
    rw [embeddedSub] at hp
    obtain ⟨ds, h1, h2⟩ := bind_ok hp
    rw [functions]
    refine allPolys_le.2 fun α j ha hj hsum => ?_
    rw [mixed_size hg] at hj
    refine blocks_term (d := dimOf (.mixed b subs)) (p := p) ha hsum (fun x hx => ?_) (Nat.zero_le _) (by rw [Nat.zero_add]; exact hj)
    obtain ⟨d, hd, hxd⟩ := embeddedSubs_mem h1 x hx
    obtain ⟨k, rfl, hle⟩ := pyMin_int h2 d hd
    rw [← hf.1 x hx]
    exact (allPolys_mono hle).trans (ih x (by simpa [children] using hx) (filleds_mem hf.2 x hx) (toldBelows_mem ht x hx)
      (fun l hl => hs l (mem_simplePartss.2 ⟨x, hx, hl⟩)) k hxd)
  | .vector b s dim v, hg, ih, hf, ht, hs, hp =>
    rw [simpleParts] at hs
    rw [Filled] at hf
    rw [ToldBelow] at ht
    rw [embeddedSub] at hp
    obtain ⟨ds, h1, h2⟩ := bind_ok hp
    rw [functions, (vector_size hg).1, (vector_size hg).2]
    by_cases h0 : dim = 0
    · rw [if_pos h0] at h1
      cases h1
      simp [pyMin] at h2
    · rw [if_neg h0] at h1 hs
      obtain ⟨d, h3, h1⟩ := bind_ok h1
      cases h1
      obtain ⟨k, rfl, hle⟩ := pyMin_int h2 d (by simp [h0])
      exact iSup_term ((allPolys_mono hle).trans (ih s (by simp [children]) hf ht hs k h3))
  | .tensor b s shape sym number count m v, hg, ih, hf, ht, hs, hp =>
    rw [simpleParts] at hs
    rw [Filled] at hf
    rw [ToldBelow] at ht
    rw [embeddedSub] at hp
    obtain ⟨ds, h1, h2⟩ := bind_ok hp
    rw [functions, hf.1, hf.2.1]
    by_cases h0 : count = 0
    · rw [if_pos h0] at h1
      cases h1
      simp [pyMin] at h2
    · rw [if_neg h0] at h1 hs
      obtain ⟨d, h3, h1⟩ := bind_ok h1
      cases h1
      obtain ⟨k, rfl, hle⟩ := pyMin_int h2 d (by simp [h0])
      exact iSup_term ((allPolys_mono hle).trans (ih s (by simp [children]) hf.2.2 ht hs k h3))
  | .product b subs, hg, ih, hf, ht, hs, hp =>
    rw [simpleParts] at hs
    rw [Filled] at hf
    rw [ToldBelow] at ht
    rw [embeddedSub, (product_facts hg).1] at hp
    rw [functions]
    refine allPolys_le.2 fun α j ha hj hsum => ?_
    rw [product_size hg] at hj
    rw [hf.1] at ha
    refine products_term (p := p) (fun x hx => ?_) ha hj hsum
    obtain ⟨k, hk, hle⟩ := pyMin_int hp _ (List.mem_map_of_mem (f := UElem.degree) hx)
    exact (allPolys_mono hle).trans (degree_contains (hg.sub x (by simpa [children] using hx)) (factors_mem hf.2 x hx)
      (fun l hl => ht l (mem_simplePartss.2 ⟨x, hx, hl⟩)) (fun l hl => hs l (mem_simplePartss.2 ⟨x, hx, hl⟩)) k hk)
  | .enriched b n subs, hg, ih, hf, ht, hs, hp =>
    rw [simpleParts] at hs
    rw [ToldBelow] at ht
    rw [Filled] at hf
    rw [embeddedSub] at hp
    obtain ⟨ds, h1, h2⟩ := bind_ok hp
    obtain ⟨x, _, he, -⟩ := enriched_facts hg
    have hx : x ∈ subs := by rw [he]; exact List.mem_cons_self
    obtain ⟨d, hd, hxd⟩ := embeddedSubs_mem h1 x hx
    obtain ⟨k, rfl, hle⟩ := pyMin_int h2 d hd
    obtain ⟨h3, h4⟩ := enriched_size hg x hx
    rw [functions, ← h3, ← h4]
    exact ((allPolys_mono hle).trans (ih x (by simpa [children] using hx) (filleds_mem hf x hx) (toldBelows_mem ht x hx)
      (fun l hl => hs l (mem_simplePartss.2 ⟨x, hx, hl⟩)) k hxd)).trans (sums_mem x hx)
  | .hdiv b s, hg, ih, hf, ht, hs, hp => rw [Filled] at hf; exact hf.elim
  | .hcurl b s, hg, ih, hf, ht, hs, hp => rw [Filled] at hf; exact hf.elim
  | .withMapping s m, hg, ih, hf, ht, hs, hp =>
    rw [simpleParts] at hs
    rw [Filled] at hf
    rw [functions, hf.1]
    have hr : ¬ ∃ b s' d, s = .restricted b s' d := by
      rintro ⟨b, s', d, rfl⟩
      have := hf.2
      rw [Filled] at this
      exact this
    have ht' : ToldBelow s := by
      cases s <;> first
        | exact absurd ⟨_, _, _, rfl⟩ hr
        | (rw [ToldBelow] at ht <;> first | exact ht | (intro _ _ _ h; cases h))
    have hp' : embeddedSub s = .ok (.int p) := by
      cases s <;> first
        | exact absurd ⟨_, _, _, rfl⟩ hr
        | (rw [embeddedSub] at hp <;> first | exact hp | (intro _ _ _ h; cases h))
    exact ih s (by simp [children]) hf.2 ht' hs p hp'
  | .restricted b s d, hg, ih, hf, ht, hs, hp => rw [Filled] at hf; exact hf.elim
  | .broken b s, hg, ih, hf, ht, hs, hp =>
    rw [simpleParts] at hs
    rw [Filled] at hf
    rw [ToldBelow] at ht
    rw [embeddedSub] at hp
    rw [functions, (broken_size hg).1, (broken_size hg).2]
    exact ih s (by simp [children]) hf ht hs p hp

end FInAT.Ufl
