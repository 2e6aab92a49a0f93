import Verif.Lemmas.NormalizeSimplify
import Verif.Lemmas.MasBasic
import Mathlib.Data.List.Forall2
import Mathlib.Data.List.Perm.Subperm

/-
`build_DNF`: a condition without universal quantifiers is equivalent to the disjunction of its alternatives.
-/
namespace Verif.Normalize
open Verif.Datalog Verif.Lifted Verif.Pddl
variable {P V O T : Type}

/-- what alternatives of a condition have in common with it -/
structure Alt (c x : Cond P V O T) : Prop where
  noDisj : hasDisj x = false
  noAll : hasAll x = false
  lits : ∀ q, c.Lits q → x.Lits q
  proper : ∀ has : T → O → Prop, c.Proper has → x.Proper has
  scope : ∀ vs, c.Scoped vs → x.Scoped vs
  bound : x.bound.Subperm c.bound
  trivially : x.trivially true = true → c.trivially true = true
  occ : ∀ (has : T → O → Prop) st p u σ, x.occurs has st p u σ → c.occurs has st p u σ

/-- the alternatives of a condition, and the result of `recurse` -/
structure Alts (c d : Cond P V O T) (as : List (Cond P V O T)) : Prop where
  shape : (d = c ∧ hasDisj c = false ∧ as = [c]) ∨ d = .disj as
  sat : ∀ (has : T → O → Prop) (ev under : Bool → GAtom P O → Prop) (σ : V → O), c.sat has ev under σ ↔ ∃ x ∈ as, x.sat has ev under σ
  alt : ∀ x ∈ as, Alt c x

theorem Alt.rfl' {c : Cond P V O T} (h1 : hasDisj c = false) (h2 : hasAll c = false) : Alt c c := ⟨h1, h2, fun _ => id, fun _ => id, fun _ => id, .refl _, id, fun _ _ _ _ _ => id⟩

theorem Alts.self {c : Cond P V O T} (h1 : hasDisj c = false) (h2 : hasAll c = false) : Alts c c [c] :=
  ⟨.inl ⟨rfl, h1, rfl⟩, by simp, by simpa using Alt.rfl' h1 h2⟩

theorem Alts.disj_iff {c d : Cond P V O T} {as : List (Cond P V O T)} (h : Alts c d as) : d.isDisj = true → d = .disj as := by
  rcases h.shape with ⟨rfl, h1, _⟩ | rfl
  · intro h
    cases d <;> simp_all [Cond.isDisj, hasDisj]
  · intro _; rfl

theorem dnfs_some : ∀ {cs : List (Cond P V O T)}, (∀ c ∈ cs, ∃ d as, dnf c = some d ∧ Alts c d as) → ∃ ds, dnfs cs = some ds ∧ List.Forall₂ (fun c d => ∃ as, Alts c d as) cs ds
  | [], _ => ⟨[], by simp [dnfs], .nil⟩
  | c :: cs, h => by
    obtain ⟨d, as, h1, h2⟩ := h c (by simp)
    obtain ⟨ds, h3, h4⟩ := dnfs_some (cs := cs) fun c hc => h c (by simp [hc])
    exact ⟨d :: ds, by rw [dnfs, h1]; simp [h3], .cons ⟨as, h2⟩ h4⟩

theorem disjunctions_cons {d : Cond P V O T} {ds : List (Cond P V O T)} : (∃ as, d = .disj as ∧ disjunctions (d :: ds) = as :: disjunctions ds ∧ notDisjunctions (d :: ds) = notDisjunctions ds) ∨
    (d.isDisj = false ∧ disjunctions (d :: ds) = disjunctions ds ∧ notDisjunctions (d :: ds) = d :: notDisjunctions ds) := by
  cases d <;> simp [disjunctions, notDisjunctions, Cond.isDisj]

/-- no disjunctions: the parts are unchanged -/
theorem no_disjunctions : ∀ {cs ds : List (Cond P V O T)}, List.Forall₂ (fun c d => ∃ as, Alts c d as) cs ds → disjunctions ds = [] → ∀ c ∈ cs, hasDisj c = false
  | _, _, .nil, _ => by simp
  | c :: cs, d :: ds, .cons ⟨as, h⟩ ht, he => by
    rcases disjunctions_cons (d := d) (ds := ds) with ⟨_, _, h2, _⟩ | ⟨h1, h2, _⟩
    · rw [h2] at he; simp at he
    · rw [h2] at he
      refine List.forall_mem_cons.mpr ⟨?_, no_disjunctions ht he⟩
      rcases h.shape with ⟨_, h3, _⟩ | rfl
      · exact h3
      · simp [Cond.isDisj] at h1

section distribute
/-- parts of results have what parts of the input have -/
theorem distribute_mem {R : Cond P V O T → Prop} (h : ∀ l : List (Cond P V O T), (∀ c ∈ l, R c) → R (.conj l)) {others : List (Cond P V O T)} (ho : ∀ c ∈ others, R c) :
    ∀ {ds : List (List (Cond P V O T))}, (∀ d ∈ ds, ∀ c ∈ d, R c) → ∀ x ∈ distribute others ds, R x
  | [], _, x, hx => by
    simp only [distribute, List.foldr_nil, List.mem_singleton] at hx
    subst hx
    exact h _ ho
  | d :: ds, hd, x, hx => by
    simp only [distribute, List.foldr_cons, List.mem_flatMap, List.mem_map] at hx
    obtain ⟨p1, h1, p2, h2, rfl⟩ := hx
    refine h _ ?_
    have := distribute_mem h ho (ds := ds) (fun d' hd' => hd d' (by simp [hd'])) p1 h1
    simp only [List.mem_cons, List.not_mem_nil, or_false, forall_eq_or_imp, forall_eq]
    exact ⟨this, hd d (by simp) p2 h2⟩

/-- one of the results is true if all of the others and one of each disjunction are -/
theorem distribute_iff {R : Cond P V O T → Prop} (h : ∀ l : List (Cond P V O T), R (.conj l) ↔ ∀ c ∈ l, R c) {others : List (Cond P V O T)} :
    ∀ {ds : List (List (Cond P V O T))}, (∃ x ∈ distribute others ds, R x) ↔ (∀ c ∈ others, R c) ∧ ∀ d ∈ ds, ∃ c ∈ d, R c
  | [] => by simp [distribute, h]
  | d :: ds => by
    have ih := distribute_iff h (others := others) (ds := ds)
    have : (∃ x ∈ distribute others (d :: ds), R x) ↔ (∃ x ∈ distribute others ds, R x) ∧ ∃ c ∈ d, R c := by
      simp only [distribute, List.foldr_cons, List.mem_flatMap, List.mem_map]
      constructor
      · rintro ⟨x, ⟨p1, h1, p2, h2, rfl⟩, hx⟩
        rw [h] at hx
        exact ⟨⟨p1, h1, hx p1 (by simp)⟩, p2, h2, hx p2 (by simp)⟩
      · rintro ⟨⟨p1, h1, hx1⟩, p2, h2, hx2⟩
        exact ⟨_, ⟨p1, h1, p2, h2, rfl⟩, (h _).mpr (by simp [hx1, hx2])⟩
    rw [this, ih, List.forall_mem_cons]
    tauto

theorem distribute_bound {others : List (Cond P V O T)} : ∀ {ds : List (List (Cond P V O T))} {bs : List (List (V × T))}, List.Forall₂ (fun d b => ∀ y ∈ d, y.bound.Subperm b) ds bs →
    ∀ x ∈ distribute others ds, x.bound.Subperm (others.flatMap Cond.bound ++ bs.flatten)
  | _, _, .nil, x, hx => by
    simp only [distribute, List.foldr_nil, List.mem_singleton] at hx
    subst hx
    rw [bound_conj]
    simpa using List.Subperm.refl _
  | d :: ds, b :: bs, .cons h ht, x, hx => by
    simp only [distribute, List.foldr_cons, List.mem_flatMap, List.mem_map] at hx
    obtain ⟨p1, h1, p2, h2, rfl⟩ := hx
    have h3 := distribute_bound (others := others) ht p1 h1
    rw [bound_conj]
    simp only [List.flatMap_cons, List.flatMap_nil, List.append_nil, List.flatten_cons]
    refine ((h3.append (h p2 h2))).trans (List.Perm.subperm ?_)
    rw [List.append_assoc]
    exact List.Perm.append_left _ List.perm_append_comm
end distribute

/-- a condition that is like a sum of its parts is like that of the alternatives -/
theorem parts_conj {R : Cond P V O T → Prop} : ∀ {cs ds : List (Cond P V O T)}, List.Forall₂ (fun c d => ∃ as, Alts c d as ∧ (R c ↔ ∃ x ∈ as, R x)) cs ds →
    ((∀ c ∈ cs, R c) ↔ (∀ c ∈ notDisjunctions ds, R c) ∧ ∀ d ∈ disjunctions ds, ∃ c ∈ d, R c)
  | _, _, .nil => by simp [disjunctions, notDisjunctions]
  | c :: cs, d :: ds, .cons ⟨as, h, hR⟩ ht => by
    have ih := parts_conj ht
    rw [List.forall_mem_cons, ih]
    rcases disjunctions_cons (d := d) (ds := ds) with ⟨as', rfl, h2, h3⟩ | ⟨h1, h2, h3⟩
    · have := h.disj_iff rfl
      cases this
      rw [h2, h3, List.forall_mem_cons, hR]
      tauto
    · rw [h2, h3, List.forall_mem_cons]
      rcases h.shape with ⟨rfl, _, _⟩ | rfl
      · tauto
      · simp [Cond.isDisj] at h1

theorem parts_disj {R : Cond P V O T → Prop} : ∀ {cs ds : List (Cond P V O T)}, List.Forall₂ (fun c d => ∃ as, Alts c d as ∧ (R c ↔ ∃ x ∈ as, R x)) cs ds →
    ((∃ c ∈ cs, R c) ↔ ∃ c ∈ notDisjunctions ds ++ (disjunctions ds).flatten, R c)
  | _, _, .nil => by simp [disjunctions, notDisjunctions]
  | c :: cs, d :: ds, .cons ⟨as, h, hR⟩ ht => by
    have ih := parts_disj ht
    rw [List.exists_mem_cons_iff, ih]
    simp only [List.mem_append]
    rcases disjunctions_cons (d := d) (ds := ds) with ⟨as', rfl, h2, h3⟩ | ⟨h1, h2, h3⟩
    · have := h.disj_iff rfl
      cases this
      rw [h2, h3, List.flatten_cons, hR]
      simp only [List.mem_append]
      constructor
      · rintro (⟨x, hx, h⟩ | ⟨x, hx | hx, h⟩)
        · exact ⟨x, .inr (.inl hx), h⟩
        · exact ⟨x, .inl hx, h⟩
        · exact ⟨x, .inr (.inr hx), h⟩
      · rintro ⟨x, hx | hx | hx, h⟩
        · exact .inr ⟨x, .inl hx, h⟩
        · exact .inl ⟨x, hx, h⟩
        · exact .inr ⟨x, .inr hx, h⟩
    · rw [h2, h3]
      rcases h.shape with ⟨rfl, _, _⟩ | rfl
      · simp only [List.mem_cons]
        constructor
        · rintro (h | ⟨x, hx | hx, h⟩)
          · exact ⟨_, .inl (.inl rfl), h⟩
          · exact ⟨x, .inl (.inr hx), h⟩
          · exact ⟨x, .inr hx, h⟩
        · rintro ⟨x, (rfl | hx) | hx, h'⟩
          · exact .inl h'
          · exact .inr ⟨x, .inl hx, h'⟩
          · exact .inr ⟨x, .inr hx, h'⟩
      · simp [Cond.isDisj] at h1

/-- every part of the result is an alternative of a part -/
theorem parts_mem : ∀ {cs ds : List (Cond P V O T)}, List.Forall₂ (fun c d => ∃ as, Alts c d as) cs ds → (∀ c ∈ cs, hasAll c = false) →
    (∀ x ∈ notDisjunctions ds, ∃ c ∈ cs, Alt c x) ∧ ∀ d ∈ disjunctions ds, ∀ x ∈ d, ∃ c ∈ cs, Alt c x
  | _, _, .nil, _ => by simp [disjunctions, notDisjunctions]
  | c :: cs, d :: ds, .cons ⟨as, h⟩ ht, ha => by
    obtain ⟨ih1, ih2⟩ := parts_mem ht fun c hc => ha c (by simp [hc])
    have up : ∀ {x}, (∃ c ∈ cs, Alt c x) → ∃ c' ∈ c :: cs, Alt c' x := fun ⟨c, hc, h⟩ => ⟨c, by simp [hc], h⟩
    rcases disjunctions_cons (d := d) (ds := ds) with ⟨as', rfl, h2, h3⟩ | ⟨h1, h2, h3⟩
    · have := h.disj_iff rfl
      cases this
      rw [h2, h3]
      refine ⟨fun x hx => up (ih1 x hx), List.forall_mem_cons.mpr ⟨fun x hx => ⟨c, by simp, h.alt x hx⟩, fun d hd x hx => up (ih2 d hd x hx)⟩⟩
    · rw [h2, h3]
      rcases h.shape with ⟨rfl, h4, _⟩ | rfl
      · exact ⟨List.forall_mem_cons.mpr ⟨⟨d, by simp, Alt.rfl' h4 (ha d (by simp))⟩, fun x hx => up (ih1 x hx)⟩, fun d hd x hx => up (ih2 d hd x hx)⟩
      · simp [Cond.isDisj] at h1

theorem parts_bound : ∀ {cs ds : List (Cond P V O T)}, List.Forall₂ (fun c d => ∃ as, Alts c d as) cs ds →
    ∃ bs : List (List (V × T)), List.Forall₂ (fun d b => ∀ y ∈ d, y.bound.Subperm b) (disjunctions ds) bs ∧ ((notDisjunctions ds).flatMap Cond.bound ++ bs.flatten).Perm (cs.flatMap Cond.bound)
  | _, _, .nil => ⟨[], by simp [disjunctions], by simp [notDisjunctions]⟩
  | c :: cs, d :: ds, .cons ⟨as, h⟩ ht => by
    obtain ⟨bs, h5, h6⟩ := parts_bound ht
    rcases disjunctions_cons (d := d) (ds := ds) with ⟨as', rfl, h2, h3⟩ | ⟨h1, h2, h3⟩
    · have := h.disj_iff rfl
      cases this
      rw [h2, h3]
      refine ⟨c.bound :: bs, .cons (fun y hy => (h.alt y hy).bound) h5, ?_⟩
      rw [List.flatten_cons, List.flatMap_cons, ← List.append_assoc]
      refine (List.Perm.append_right _ List.perm_append_comm).trans ?_
      rw [List.append_assoc]
      exact h6.append_left _
    · rw [h2, h3]
      refine ⟨bs, h5, ?_⟩
      rcases h.shape with ⟨rfl, _, _⟩ | rfl
      · rw [List.flatMap_cons, List.flatMap_cons, List.append_assoc]
        exact h6.append_left _
      · simp [Cond.isDisj] at h1

theorem bound_mem {c : Cond P V O T} {cs : List (Cond P V O T)} (h : c ∈ cs) : c.bound.Subperm (cs.flatMap Cond.bound) := by
  rw [List.flatMap_def]
  exact (List.sublist_flatten_of_mem (List.mem_map_of_mem h)).subperm

/-- every condition without universal quantifiers has alternatives -/
theorem dnf_alts (c : Cond P V O T) : hasAll c = false → ∃ d as, dnf c = some d ∧ Alts c d as := by
  induction c using Cond.ind with
  | truth => intro _; exact ⟨.truth, [.truth], by simp [dnf], .self rfl rfl⟩
  | falsity => intro _; exact ⟨.falsity, [.falsity], by simp [dnf], .self rfl rfl⟩
  | lit n a => intro _; exact ⟨.lit n a, [.lit n a], by simp [dnf], .self rfl rfl⟩
  | all ps b ih => intro h; simp [hasAll] at h
  | ex ps b ih =>
    intro ha
    obtain ⟨d, as, h1, h2⟩ := ih (by simpa [hasAll] using ha)
    rcases h2.shape with ⟨rfl, h3, h4⟩ | rfl
    · have : hasDisj (.ex ps d) = false := by simpa [hasDisj] using h3
      refine ⟨.ex ps d, [.ex ps d], ?_, .self this ha⟩
      rw [dnf, h1]
      cases d <;> simp_all [hasDisj]
    · refine ⟨.disj (as.map (.ex ps)), as.map (.ex ps), by rw [dnf, h1], .inr rfl, ?_, ?_⟩
      · intro has ev under σ
        rw [sat_ex]
        simp only [h2.sat, List.mem_map, exists_exists_and_eq_and, sat_ex]
        exact ⟨fun ⟨τ, hτ, x, hx, h⟩ => ⟨x, hx, τ, hτ, h⟩, fun ⟨x, hx, τ, hτ, h⟩ => ⟨τ, hτ, x, hx, h⟩⟩
      · intro x hx
        obtain ⟨y, hy, rfl⟩ := List.mem_map.mp hx
        have hA := h2.alt y hy
        refine ⟨by simpa [hasDisj] using hA.noDisj, by simpa [hasAll] using hA.noAll, fun q => hA.lits q, ?_, fun vs => hA.scope _, ?_, ?_, ?_⟩
        · intro has hp
          rw [Cond.Proper] at hp ⊢
          refine ⟨hp.1.imp_right fun h => ?_, hA.proper has hp.2⟩
          by_contra hy
          rw [hA.trivially (by simpa using hy)] at h
          simp at h
        · rw [Cond.bound, Cond.bound]
          exact (List.Subperm.refl _).append hA.bound
        · simp only [Cond.trivially]
          exact hA.trivially
        · intro has st p u σ h
          rw [Cond.occurs] at h ⊢
          exact h.imp fun τ h => ⟨h.1, hA.occ has st p u τ h.2⟩
  | conj cs ih =>
    intro ha
    have ha' := noAll_conj.mp ha
    obtain ⟨ds, h1, h2⟩ := dnfs_some fun c hc => ih c hc (ha' c hc)
    by_cases he : disjunctions ds = []
    · have := no_disjunctions h2 he
      exact ⟨.conj cs, [.conj cs], by rw [dnf, h1]; simp [he], .self (noDisj_conj.mpr this) ha⟩
    · obtain ⟨hm1, hm2⟩ := parts_mem h2 ha'
      have hm : ∀ {R : Cond P V O T → Prop}, (∀ l : List (Cond P V O T), (∀ c ∈ l, R c) → R (.conj l)) → (∀ c ∈ cs, ∀ x, Alt c x → R x) → ∀ x ∈ distribute (notDisjunctions ds) (disjunctions ds), R x :=
        fun hR h => distribute_mem hR (fun x hx => let ⟨c, hc, hA⟩ := hm1 x hx; h c hc x hA) fun d hd x hx => let ⟨c, hc, hA⟩ := hm2 d hd x hx; h c hc x hA
      refine ⟨.disj (distribute (notDisjunctions ds) (disjunctions ds)), distribute (notDisjunctions ds) (disjunctions ds), ?_, .inr rfl, ?_, fun x hx => ?_⟩
      · rw [dnf, h1, Option.map_some, if_neg (by simpa using he)]
      · intro has ev under σ
        rw [sat_conj, distribute_iff (R := fun c => c.sat has ev under σ) (fun l => sat_conj), ← parts_conj (R := fun c => c.sat has ev under σ)]
        exact h2.imp fun c d ⟨as, h⟩ => ⟨as, h, h.sat has ev under σ⟩
      · refine ⟨hm (R := fun c => hasDisj c = false) (fun l => noDisj_conj.mpr) (fun c _ x h => h.noDisj) x hx, hm (R := fun c => hasAll c = false) (fun l => noAll_conj.mpr) (fun c _ x h => h.noAll) x hx, ?_, ?_, ?_, ?_, ?_, ?_⟩
        · intro q hq
          exact hm (R := fun c => c.Lits q) (fun l => Lits_conj.mpr) (fun c hc x h => h.lits q (Lits_conj.mp hq c hc)) x hx
        · intro has hp
          exact hm (R := fun c => c.Proper has) (fun l => Proper_conj.mpr) (fun c hc x h => h.proper has (Proper_conj.mp hp c hc)) x hx
        · intro vs hs
          exact hm (R := fun c => c.Scoped vs) (fun l => Scoped_conj.mpr) (fun c hc x h => h.scope vs (Scoped_conj.mp hs c hc)) x hx
        · obtain ⟨bs, h5, h6⟩ := parts_bound h2
          rw [bound_conj]
          exact (distribute_bound h5 x hx).trans h6.subperm
        · intro ht
          have hR : ∀ l : List (Cond P V O T), (Cond.conj l).trivially true = true ↔ ∀ c ∈ l, c.trivially true = true := by intro l; rw [trivially_conj]; simp
          have h7 := (distribute_iff (R := fun c => c.trivially true = true) hR).mp ⟨x, hx, ht⟩
          rw [hR]
          have h8 : ∀ {cs ds : List (Cond P V O T)}, List.Forall₂ (fun c d => ∃ as, Alts c d as) cs ds → (∀ c ∈ notDisjunctions ds, c.trivially true = true) → (∀ d ∈ disjunctions ds, ∃ c ∈ d, c.trivially true = true) → ∀ c ∈ cs, c.trivially true = true := by
            intro cs ds h
            induction h with
            | nil => simp
            | @cons c d cs ds hd ht ih =>
              obtain ⟨as, hd⟩ := hd
              intro h1 h2
              rcases disjunctions_cons (d := d) (ds := ds) with ⟨as', rfl, h3, h4⟩ | ⟨h5, h3, h4⟩
              · have := hd.disj_iff rfl
                cases this
                rw [h4] at h1
                rw [h3] at h2
                obtain ⟨y, hy, hy'⟩ := h2 as (by simp)
                exact List.forall_mem_cons.mpr ⟨(hd.alt y hy).trivially hy', ih h1 fun d hd => h2 d (by simp [hd])⟩
              · rw [h4] at h1
                rw [h3] at h2
                rcases hd.shape with ⟨rfl, _, _⟩ | rfl
                · exact List.forall_mem_cons.mpr ⟨h1 _ (by simp), ih (fun c hc => h1 c (by simp [hc])) h2⟩
                · simp [Cond.isDisj] at h5
          exact h8 h2 h7.1 h7.2
        · intro has st p u σ
          refine hm (R := fun x => x.occurs has st p u σ → (Cond.conj cs).occurs has st p u σ) (fun l hl h => ?_) (fun c hc x h h' => occurs_conj.mpr ⟨c, hc, h.occ has st p u σ h'⟩) x hx
          obtain ⟨c, hc, h⟩ := occurs_conj.mp h
          exact hl c hc h
  | disj cs ih =>
    intro ha
    have ha' := noAll_disj.mp ha
    obtain ⟨ds, h1, h2⟩ := dnfs_some fun c hc => ih c hc (ha' c hc)
    have key : ∀ x, (∃ c ∈ cs, Alt c x) → Alt (.disj cs) x := by
      rintro x ⟨c, hc, hA⟩
      refine ⟨hA.noDisj, hA.noAll, fun q hq => hA.lits q (Lits_disj.mp hq c hc), fun has hp => hA.proper has (Proper_disj.mp hp c hc), fun vs hs => hA.scope vs (Scoped_disj.mp hs c hc), ?_, fun ht => ?_, fun has st p u σ h => occurs_disj.mpr ⟨c, hc, hA.occ has st p u σ h⟩⟩
      · rw [bound_disj]
        exact hA.bound.trans (bound_mem hc)
      · rw [trivially_disj]
        simp only [if_true, List.any_eq_true]
        exact ⟨c, hc, hA.trivially ht⟩
    by_cases he : disjunctions ds = []
    · have := no_disjunctions h2 he
      exact ⟨.disj cs, cs, by rw [dnf, h1]; simp [he], .inr rfl, fun _ _ _ _ => sat_disj, fun x hx => key x ⟨x, hx, Alt.rfl' (this x hx) (ha' x hx)⟩⟩
    · obtain ⟨hm1, hm2⟩ := parts_mem h2 ha'
      refine ⟨.disj (notDisjunctions ds ++ (disjunctions ds).flatten), notDisjunctions ds ++ (disjunctions ds).flatten, ?_, .inr rfl, ?_, fun x hx => key x ?_⟩
      · rw [dnf, h1, Option.map_some, if_neg (by simpa using he)]
      · intro has ev under σ
        rw [sat_disj]
        exact parts_disj (R := fun c => c.sat has ev under σ) (h2.imp fun c d ⟨as, h⟩ => ⟨as, h, h.sat has ev under σ⟩)
      · rcases List.mem_append.mp hx with hx | hx
        · exact hm1 x hx
        · obtain ⟨d, hd, hx⟩ := List.mem_flatten.mp hx
          exact hm2 d hd x hx

/-- the result of `build_DNF`, by its alternatives -/
structure Dnf (c : Cond P V O T) (y : Cond P V O T) : Prop where
  noDisj : hasDisj y = false
  noAll : hasAll y = false
  flat : y.Flat
  lits : ∀ q, c.Lits q → y.Lits q
  proper : ∀ has : T → O → Prop, c.Proper has → y.Proper has
  scope : ∀ vs, c.Scoped vs → y.Scoped vs
  bound : y.bound.Subperm c.bound
  occ : ∀ (has : T → O → Prop) st p u σ, y.occurs has st p u σ → c.occurs has st p u σ

theorem occurs_simplify {has : T → O → Prop} {st : Bool} {p : GAtom P O} (c : Cond P V O T) : ∀ {u : Bool} {σ : V → O}, (simplify c).occurs has st p u σ → c.occurs has st p u σ := by
  have hc1 : ∀ (c d : Cond P V O T) (u : Bool) (σ : V → O), d ∈ conjPiece c → d.occurs has st p u σ → c.occurs has st p u σ := by
    intro c d u σ hd h
    cases c with
    | conj qs => exact occurs_conj.mpr ⟨d, hd, h⟩
    | truth => simp [conjPiece] at hd
    | falsity => simp [conjPiece] at hd
    | _ => rw [conjPiece_of_not rfl rfl, List.mem_singleton] at hd; subst hd; exact h
  have hd1 : ∀ (c d : Cond P V O T) (u : Bool) (σ : V → O), d ∈ disjPiece c → d.occurs has st p u σ → c.occurs has st p u σ := by
    intro c d u σ hd h
    cases c with
    | disj qs => exact occurs_disj.mpr ⟨d, hd, h⟩
    | truth => simp [disjPiece] at hd
    | falsity => simp [disjPiece] at hd
    | _ => rw [disjPiece_of_not rfl rfl, List.mem_singleton] at hd; subst hd; exact h
  induction c using Cond.ind with
  | truth => intro u σ; exact id
  | falsity => intro u σ; exact id
  | lit n a => intro u σ; exact id
  | conj cs ih =>
    intro u σ
    have hp : ∀ d ∈ (cs.map simplify).flatMap conjPiece, d.occurs has st p u σ → (Cond.conj cs).occurs has st p u σ := by
      intro d hd h
      obtain ⟨c', hc', hd⟩ := List.mem_flatMap.mp hd
      obtain ⟨c, hm, rfl⟩ := List.mem_map.mp hc'
      exact occurs_conj.mpr ⟨c, hm, ih c hm (hc1 _ _ _ _ hd h)⟩
    rw [simplify_conj]
    rcases simplifyConj_cases (cs.map simplify) with ⟨_, h2⟩ | ⟨_, ⟨_, h2⟩ | ⟨c, h1, h2⟩ | ⟨c, d, ds, h1, h2⟩⟩
    · rw [h2]; simp [Cond.occurs]
    · rw [h2]; simp [Cond.occurs]
    · rw [h2]; exact hp c (by rw [h1]; simp)
    · rw [h2, ← h1]
      intro h
      obtain ⟨d, hd, h⟩ := occurs_conj.mp h
      exact hp d hd h
  | disj cs ih =>
    intro u σ
    have hp : ∀ d ∈ (cs.map simplify).flatMap disjPiece, d.occurs has st p u σ → (Cond.disj cs).occurs has st p u σ := by
      intro d hd h
      obtain ⟨c', hc', hd⟩ := List.mem_flatMap.mp hd
      obtain ⟨c, hm, rfl⟩ := List.mem_map.mp hc'
      exact occurs_disj.mpr ⟨c, hm, ih c hm (hd1 _ _ _ _ hd h)⟩
    rw [simplify_disj]
    rcases simplifyDisj_cases (cs.map simplify) with ⟨_, h2⟩ | ⟨_, ⟨_, h2⟩ | ⟨c, h1, h2⟩ | ⟨c, d, ds, h1, h2⟩⟩
    · rw [h2]; simp [Cond.occurs]
    · rw [h2]; simp [Cond.occurs]
    · rw [h2]; exact hp c (by rw [h1]; simp)
    · rw [h2, ← h1]
      intro h
      obtain ⟨d, hd, h⟩ := occurs_disj.mp h
      exact hp d hd h
  | all ps b ih =>
    intro u σ
    rcases simplify_all (ps := ps) (b := b) with ⟨h2, h3⟩ | ⟨_, h3⟩ <;> rw [h3]
    · rcases isConst_iff.mp h2 with h | h <;> rw [h] <;> simp [Cond.occurs]
    · rw [Cond.occurs, Cond.occurs]
      exact fun h => h.imp fun τ h => ⟨h.1, ih h.2⟩
  | ex ps b ih =>
    intro u σ
    rcases simplify_ex (ps := ps) (b := b) with ⟨h2, h3⟩ | ⟨_, h3⟩ <;> rw [h3]
    · rcases isConst_iff.mp h2 with h | h <;> rw [h] <;> simp [Cond.occurs]
    · rw [Cond.occurs, Cond.occurs]
      exact fun h => h.imp fun τ h => ⟨h.1, ih h.2⟩

theorem Alt.simplify {c x : Cond P V O T} (h : Alt c x) : Dnf c (simplify x) :=
  ⟨hered_disj.simplify x h.noDisj, hered_all.simplify x h.noAll, flat_simplify x, fun q hq => hered_lits.simplify x (h.lits q hq), fun has hp => proper_simplify x (h.proper has hp), fun vs hs => scoped_simplify x (h.scope vs hs),
    (bound_simplify x).subperm.trans h.bound, fun has st p u σ h' => h.occ has st p u σ (occurs_simplify x h')⟩

theorem isDisj_of_noDisj {c : Cond P V O T} (h : hasDisj c = false) : c.isDisj = false := by cases c <;> simp_all [hasDisj, Cond.isDisj]

theorem alternatives_of_noDisj {c : Cond P V O T} (h : c.isDisj = false) : alternatives c = [c] := by cases c <;> simp_all [alternatives, Cond.isDisj]

theorem sat_alternatives {has : T → O → Prop} {ev under : Bool → GAtom P O → Prop} {σ : V → O} {c : Cond P V O T} : c.sat has ev under σ ↔ ∃ x ∈ alternatives c, x.sat has ev under σ := by
  cases c <;> simp [alternatives, sat_disj]

/-- `build_DNF` for a condition -/
theorem dnfCond_spec [DecidableEq V] {c : Cond P V O T} (ha : hasAll c = false) (hf : c.Flat) : ∃ d, dnfCond c = some d ∧ alternatives d ≠ [] ∧ (∀ y ∈ alternatives d, Dnf c y) ∧
    ∀ (has : T → O → Prop) (ev under : Bool → GAtom P O → Prop) (σ : V → O), c.Proper has → (c.sat has ev under σ ↔ ∃ y ∈ alternatives d, y.sat has ev under σ) := by
  by_cases hd : hasDisj c = true
  · obtain ⟨d, as, h1, h2⟩ := dnf_alts c ha
    have hd' : d = .disj as := by
      rcases h2.shape with ⟨rfl, h3, _⟩ | h
      · rw [h3] at hd; simp at hd
      · exact h
    subst hd'
    have h3 : alternatives (simplify (.disj as)) ≠ [] ∧ ∀ y ∈ alternatives (simplify (.disj as)), Dnf c y := by
      have hp : ∀ {x}, x ∈ (as.map simplify).flatMap disjPiece → Dnf c x := by
        intro x hx
        obtain ⟨y, hy, hx⟩ := List.mem_flatMap.mp hx
        obtain ⟨a, ha, rfl⟩ := List.mem_map.mp hy
        have hA := (h2.alt a ha).simplify
        have : x = simplify a := by
          generalize simplify a = b at hx hA
          have := hA.noDisj
          cases b <;> simp_all [disjPiece, hasDisj]
        rw [this]
        exact hA
      have hc : ∀ {x : Cond P V O T}, x.isConst = true → Dnf c x := by
        intro x hx
        rcases isConst_iff.mp hx with rfl | rfl <;> exact ⟨rfl, rfl, trivial, fun _ _ => trivial, fun _ _ => trivial, fun _ _ => trivial, by simp [Cond.bound], fun _ _ _ _ _ h => by simp [Cond.occurs] at h⟩
      rw [simplify_disj]
      rcases simplifyDisj_cases (as.map simplify) with ⟨_, h4⟩ | ⟨_, ⟨_, h4⟩ | ⟨x, h5, h4⟩ | ⟨x, y, ys, h5, h4⟩⟩
      · rw [h4]
        simp only [alternatives, List.mem_singleton, forall_eq]
        exact ⟨by simp, hc rfl⟩
      · rw [h4]
        simp only [alternatives, List.mem_singleton, forall_eq]
        exact ⟨by simp, hc rfl⟩
      · have hx := hp (x := x) (by rw [h5]; simp)
        rw [h4, alternatives_of_noDisj (isDisj_of_noDisj hx.noDisj)]
        simpa using hx
      · rw [h4, ← h5]
        exact ⟨by rw [alternatives, h5]; simp, fun x hx => hp hx⟩
    refine ⟨simplify (.disj as), by rw [dnfCond, if_pos hd, h1]; rfl, h3.1, h3.2, ?_⟩
    intro has ev under σ hp
    rw [← sat_alternatives, sat_simplify, sat_disj, h2.sat]
    exact Proper_disj.mpr fun x hx => (h2.alt x hx).proper has hp
  · have hd : hasDisj c = false := by simpa using hd
    refine ⟨c, by rw [dnfCond, hd]; rfl, by rw [alternatives_of_noDisj (isDisj_of_noDisj hd)]; simp, ?_, fun has ev under σ _ => sat_alternatives⟩
    rw [alternatives_of_noDisj (isDisj_of_noDisj hd)]
    simp only [List.mem_singleton, forall_eq]
    exact ⟨hd, ha, hf, fun _ => id, fun _ => id, fun _ => id, .refl _, fun _ _ _ _ _ => id⟩

end Verif.Normalize
