import Verif.Spec.EagerSearch
import Verif.Lemmas.SearchSpace
import Verif.Lemmas.OpenListSpec

/- Eager search on the level of node information and stored entries. -/
namespace Verif.Search
open Verif.OpenList
set_option inductive.autoPromoteIndices false

variable {S σ K : Type} [DecidableEq S] {H : StdHeap S} {rel : Nat → Bool} {cfg : Cfg}

/-- the information stored for a successor -/
def childInfo (w : World S) (infos : S → NodeInfo S) (s : S) (o : Nat) (st : Status) : NodeInfo S :=
  ⟨st, (infos s).g + w.adj o, some s, some o, (infos s).realG + w.cost o⟩

/-- treating the successor `t` of `s` via `o` -/
inductive Trans (w : World S) (E : Env S σ) (opts : Options) (A : OLSpec K S H rel cfg) (s : S) (o : Nat) (t : S) :
    (S → NodeInfo S) → List (K × S) → (S → NodeInfo S) → List (K × S) → Prop where
  | dead (infos : S → NodeInfo S) (l : List (K × S)) : (infos t).status = .deadEnd → Trans w E opts A s o t infos l infos l
  | newDead (infos : S → NodeInfo S) (l : List (K × S)) (c) : (infos t).status = .new → E.Evals t ((infos s).g + w.adj o) c → Spec.DeadEnd rel c cfg →
      Trans w E opts A s o t infos l (upd infos t (markDeadEnd (infos t))) l
  | newOpen (infos : S → NodeInfo S) (l : List (K × S)) (c) : (infos t).status = .new → E.Evals t ((infos s).g + w.adj o) c → ¬ Spec.DeadEnd rel c cfg → (infos s).g + w.adj o < 2 ^ 29 →
      Trans w E opts A s o t infos l (upd infos t (childInfo w infos s o .opened)) (l ++ List.replicate (Spec.copies rel c cfg) (A.key c, t))
  | improve (infos : S → NodeInfo S) (l : List (K × S)) (c) : ((infos t).status = .opened ∨ (infos t).status = .closed ∧ opts.reopen = true) →
      (infos s).g + w.adj o < (infos t).g → E.Evals t ((infos s).g + w.adj o) c → (infos s).g + w.adj o < 2 ^ 29 →
      Trans w E opts A s o t infos l (upd infos t (childInfo w infos s o .opened)) (l ++ List.replicate (Spec.copies rel c cfg) (A.key c, t))
  | improveClosed (infos : S → NodeInfo S) (l : List (K × S)) : (infos t).status = .closed → opts.reopen = false → (infos s).g + w.adj o < (infos t).g → (infos s).g + w.adj o < 2 ^ 29 →
      Trans w E opts A s o t infos l (upd infos t (childInfo w infos s o .closed)) l
  | same (infos : S → NodeInfo S) (l : List (K × S)) : ((infos t).status = .opened ∨ (infos t).status = .closed) → (infos t).g ≤ (infos s).g + w.adj o →
      Trans w E opts A s o t infos l infos l

/-- the loop over the operators -/
inductive Gen (w : World S) (E : Env S σ) (opts : Options) (A : OLSpec K S H rel cfg) (s : S) :
    List Nat → (S → NodeInfo S) → List (K × S) → (S → NodeInfo S) → List (K × S) → Prop where
  | nil (infos : S → NodeInfo S) (l : List (K × S)) : Gen w E opts A s [] infos l infos l
  | skip (o) (os) (infos : S → NodeInfo S) (l : List (K × S)) (infos' : S → NodeInfo S) (l' : List (K × S)) : (infos s).realG + w.cost o ≥ opts.bound → Gen w E opts A s os infos l infos' l' →
      Gen w E opts A s (o :: os) infos l infos' l'
  | step (o) (os) (t) (infos : S → NodeInfo S) (l : List (K × S)) (infos1 : S → NodeInfo S) (l1 : List (K × S)) (infos' : S → NodeInfo S) (l' : List (K × S)) : (infos s).realG + w.cost o < opts.bound → w.succ s o = some t →
      Trans w E opts A s o t infos l infos1 l1 → Gen w E opts A s os infos1 l1 infos' l' →
      Gen w E opts A s (o :: os) infos l infos' l'

def setStatus (infos : S → NodeInfo S) (s : S) (st : Status) : S → NodeInfo S := upd infos s { infos s with status := st }

/-- a step which does not end the search -/
inductive AStep (w : World S) (E : Env S σ) (opts : Options) (A : OLSpec K S H rel cfg) :
    (S → NodeInfo S) → List (K × S) → (S → NodeInfo S) → List (K × S) → Prop where
  | closed (infos : S → NodeInfo S) (l : List (K × S)) (s) (l' : List (K × S)) : A.Pop l s l' → (infos s).status = .closed → AStep w E opts A infos l infos l'
  | dead (infos : S → NodeInfo S) (l : List (K × S)) (s) (l' : List (K × S)) : A.Pop l s l' → (infos s).status = .deadEnd → E.lazyEvaluator ≠ none → AStep w E opts A infos l infos l'
  | nowDead (infos : S → NodeInfo S) (l : List (K × S)) (s) (l' : List (K × S)) (c) : A.Pop l s l' → (infos s).status = .opened → E.lazyEvaluator ≠ none → E.Reevals s (infos s).g c → Spec.DeadEnd rel c cfg →
      AStep w E opts A infos l (setStatus infos s .deadEnd) l'
  | again (infos : S → NodeInfo S) (l : List (K × S)) (s) (l' : List (K × S)) (c) : A.Pop l s l' → (infos s).status = .opened → E.lazyEvaluator ≠ none → E.Reevals s (infos s).g c → ¬ Spec.DeadEnd rel c cfg →
      AStep w E opts A infos l infos (l' ++ List.replicate (Spec.copies rel c cfg) (A.key c, s))
  | expand (infos : S → NodeInfo S) (l : List (K × S)) (s) (l' : List (K × S)) (ops) (os) (infos2 : S → NodeInfo S) (l2 : List (K × S)) : A.Pop l s l' → (infos s).status = .opened → w.goal s = some false → w.ops s = some ops → E.Prunes s ops os →
      Gen w E opts A s os (setStatus infos s .closed) l' infos2 l2 → AStep w E opts A infos l infos2 l2

/-- the invariant behind soundness -/
structure EInv (w : World S) (valid : S → Prop) (E : Env S σ) (infos : S → NodeInfo S) (l : List (K × S)) : Prop where
  nodes : NodeInv w valid infos
  walks : WalkInv w infos
  entries : ∀ x ∈ l, Created infos x.2
  alive : E.lazyEvaluator = none → ∀ x ∈ l, (infos x.2).status ≠ .deadEnd
  small : ∀ s, (infos s).g < 2 ^ 29

theorem EInv.not_new {w : World S} {valid : S → Prop} {E : Env S σ} {infos : S → NodeInfo S} {l : List (K × S)} (h : EInv w valid E infos l) {s : S}
    (hs : Created infos s) : (infos s).status ≠ .new := fun hc => h.nodes.fresh s hc hs

theorem created_mono_child {w : World S} {infos : S → NodeInfo S} {s t : S} {o : Nat} {st : Status} (hs : Created infos s) {x : S} (hx : Created infos x ∨ x = t) :
    Created (upd infos t (childInfo w infos s o st)) x := by
  by_cases hxt : x = t
  · subst hxt
    have : 0 ≤ (infos s).g := hs
    simp [Created, childInfo]; omega
  · rcases hx with hx | hx
    · unfold Created; rw [upd_ne _ _ hxt]; exact hx
    · exact absurd hx hxt

theorem small_child {w : World S} {infos : S → NodeInfo S} {s t : S} {o : Nat} {st : Status} (h : ∀ x, (infos x).g < 2 ^ 29) (hg : (infos s).g + w.adj o < 2 ^ 29) (x : S) :
    (upd infos t (childInfo w infos s o st) x).g < 2 ^ 29 := by
  by_cases hx : x = t
  · subst hx; simpa [childInfo] using hg
  · rw [upd_ne _ _ hx]; exact h x

theorem small_setStatus {infos : S → NodeInfo S} {s : S} {st : Status} (h : ∀ x, (infos x).g < 2 ^ 29) (x : S) : (setStatus infos s st x).g < 2 ^ 29 := by
  unfold setStatus
  by_cases hx : x = s
  · subst hx; simpa using h x
  · rw [upd_ne _ _ hx]; exact h x

/-- what a transition does not change, and the invariant -/
theorem Trans.inv {w : World S} {valid : S → Prop} (hv : w.Total valid) {E : Env S σ} {opts : Options} {A : OLSpec K S H rel cfg} {s t : S} {o : Nat} {ops : List Nat}
    {infos infos' : S → NodeInfo S} {l l' : List (K × S)} (h : Trans w E opts A s o t infos l infos' l') (hi : EInv w valid E infos l)
    (hs : Created infos s) (hops : w.ops s = some ops) (ho : o ∈ ops) (hsucc : w.succ s o = some t) :
    EInv w valid E infos' l' ∧ infos' s = infos s := by
  have hs0 : 0 ≤ (infos s).g := hs
  have hnn : (infos s).status ≠ .new := hi.not_new hs
  cases h with
  | dead _ _ h => exact ⟨hi, rfl⟩
  | same _ _ h h1 => exact ⟨hi, rfl⟩
  | newDead _ _ c h1 h2 h3 =>
    have hts : s ≠ t := by rintro rfl; exact hnn h1
    refine ⟨⟨?_, ?_, ?_, ?_, small_setStatus hi.small⟩, upd_ne _ _ hts⟩
    · exact hi.nodes.setStatus (by simp) (by simp)
    · exact hi.walks.setStatus
    · intro x hx
      have := hi.entries x hx
      unfold Created
      by_cases hxt : x.2 = t
      · rw [hxt] at this; exact absurd this (hi.nodes.fresh t h1)
      · rw [upd_ne _ _ hxt]; exact this
    · intro hl x hx
      have hcr := hi.entries x hx
      by_cases hxt : x.2 = t
      · rw [hxt] at hcr; exact absurd hcr (hi.nodes.fresh t h1)
      · rw [upd_ne _ _ hxt]; exact hi.alive hl x hx
  | newOpen _ _ c h1 h2 h3 hg29 =>
    have hts : s ≠ t := by rintro rfl; exact hnn h1
    have hnc : ¬ Created infos t := hi.nodes.fresh t h1
    refine ⟨⟨?_, ?_, ?_, ?_, small_child hi.small hg29⟩, upd_ne _ _ hts⟩
    · exact hi.nodes.setParent hv hs hops ho hsucc rfl (Or.inl (by rintro rfl; exact hnc (hi.nodes.init_created hs))) (fun h => absurd h hnc) (Or.inl rfl)
    · exact hi.walks.setParent hs hops ho hsucc rfl rfl (fun h => absurd h hnc)
    · intro x hx
      rcases List.mem_append.mp hx with hx | hx
      · exact created_mono_child hs (Or.inl (hi.entries x hx))
      · exact created_mono_child hs (Or.inr (by rw [List.eq_of_mem_replicate hx]))
    · intro hl x hx
      by_cases hxt : x.2 = t
      · rw [hxt]; simp [childInfo]
      · rw [upd_ne _ _ hxt]
        rcases List.mem_append.mp hx with hx | hx
        · exact hi.alive hl x hx
        · rw [List.eq_of_mem_replicate hx] at hxt; exact absurd rfl hxt
  | improve _ _ c h1 h2 h3 hg29 =>
    have hts : s ≠ t := by rintro rfl; omega
    have hct : Created infos t := hi.nodes.live t (by rcases h1 with h1 | h1 <;> simp [h1])
    refine ⟨⟨?_, ?_, ?_, ?_, small_child hi.small hg29⟩, upd_ne _ _ hts⟩
    · exact hi.nodes.setParent hv hs hops ho hsucc rfl (Or.inr hct) (fun _ => h2) (Or.inl rfl)
    · exact hi.walks.setParent hs hops ho hsucc rfl rfl (fun _ => h2)
    · intro x hx
      rcases List.mem_append.mp hx with hx | hx
      · exact created_mono_child hs (Or.inl (hi.entries x hx))
      · exact created_mono_child hs (Or.inr (by rw [List.eq_of_mem_replicate hx]))
    · intro hl x hx
      by_cases hxt : x.2 = t
      · rw [hxt]; simp [childInfo]
      · rw [upd_ne _ _ hxt]
        rcases List.mem_append.mp hx with hx | hx
        · exact hi.alive hl x hx
        · rw [List.eq_of_mem_replicate hx] at hxt; exact absurd rfl hxt
  | improveClosed _ _ h1 h0 h2 hg29 =>
    have hts : s ≠ t := by rintro rfl; omega
    have hct : Created infos t := hi.nodes.live t (by simp [h1])
    refine ⟨⟨?_, ?_, ?_, ?_, small_child hi.small hg29⟩, upd_ne _ _ hts⟩
    · exact hi.nodes.setParent hv hs hops ho hsucc rfl (Or.inr hct) (fun _ => h2) (Or.inr rfl)
    · exact hi.walks.setParent hs hops ho hsucc rfl rfl (fun _ => h2)
    · intro x hx
      exact created_mono_child hs (Or.inl (hi.entries x hx))
    · intro hl x hx
      by_cases hxt : x.2 = t
      · rw [hxt]; simp [childInfo]
      · rw [upd_ne _ _ hxt]
        exact hi.alive hl x hx

theorem Gen.inv {w : World S} {valid : S → Prop} (hv : w.Total valid) {E : Env S σ} {opts : Options} {A : OLSpec K S H rel cfg} {s : S} {ops os : List Nat}
    {infos infos' : S → NodeInfo S} {l l' : List (K × S)} (h : Gen w E opts A s os infos l infos' l') (hi : EInv w valid E infos l)
    (hs : Created infos s) (hops : w.ops s = some ops) (hos : ∀ o ∈ os, o ∈ ops) : EInv w valid E infos' l' ∧ infos' s = infos s := by
  induction h with
  | nil infos l => exact ⟨hi, rfl⟩
  | skip o os infos l infos' l' _ _ ih => exact ih hi hs (fun o ho => hos o (by simp [ho]))
  | step o os t infos l infos1 l1 infos' l' _ h2 h3 _ ih =>
    obtain ⟨i1, i2⟩ := h3.inv hv hi hs hops (hos o (by simp)) h2
    obtain ⟨j1, j2⟩ := ih i1 (by unfold Created; rw [i2]; exact hs) (fun o ho => hos o (by simp [ho]))
    exact ⟨j1, j2.trans i2⟩

theorem EInv.close {w : World S} {valid : S → Prop} {E : Env S σ} {infos : S → NodeInfo S} {l : List (K × S)} {s : S} {st : Status} (hi : EInv w valid E infos l)
    (hs : Created infos s) (hst : st = .closed) : EInv w valid E (setStatus infos s st) l := by
  subst hst
  refine ⟨hi.nodes.setStatus (fun _ => hs) (by simp), hi.walks.setStatus, ?_, ?_, small_setStatus hi.small⟩
  · intro x hx
    unfold Created setStatus
    have := hi.entries x hx
    by_cases hxs : x.2 = s
    · rw [hxs]; simpa [Created] using hs
    · rw [upd_ne _ _ hxs]; exact this
  · intro hl x hx
    unfold setStatus
    by_cases hxs : x.2 = s
    · rw [hxs]; simp
    · rw [upd_ne _ _ hxs]; exact hi.alive hl x hx

theorem EInv.pop {w : World S} {valid : S → Prop} {E : Env S σ} {A : OLSpec K S H rel cfg} {infos : S → NodeInfo S} {l l' : List (K × S)} {s : S}
    (hi : EInv w valid E infos l) (hp : A.Pop l s l') : EInv w valid E infos l' ∧ Created infos s ∧ (E.lazyEvaluator = none → (infos s).status ≠ .deadEnd) := by
  obtain ⟨k, hk⟩ := A.popPerm l s l' hp
  refine ⟨⟨hi.nodes, hi.walks, fun x hx => hi.entries x (hk.symm.subset (by simp [hx])), fun h x hx => hi.alive h x (hk.symm.subset (by simp [hx])), hi.small⟩,
    hi.entries (k, s) (hk.symm.subset (by simp)), fun h => hi.alive h (k, s) (hk.symm.subset (by simp))⟩

theorem AStep.inv {w : World S} {valid : S → Prop} (hv : w.Total valid) {E : Env S σ} (hpr : E.PrunesOnly) {opts : Options} {A : OLSpec K S H rel cfg}
    {infos infos' : S → NodeInfo S} {l l' : List (K × S)} (h : AStep w E opts A infos l infos' l') (hi : EInv w valid E infos l) : EInv w valid E infos' l' := by
  cases h with
  | closed _ _ s _ hp _ => exact (hi.pop hp).1
  | dead _ _ s _ hp _ _ => exact (hi.pop hp).1
  | nowDead _ _ s _ c hp h1 h2 h3 h4 =>
    obtain ⟨i1, i2, i3⟩ := hi.pop hp
    refine ⟨i1.nodes.setStatus (by simp) (by simp), i1.walks.setStatus, ?_, fun h => absurd h h2, small_setStatus hi.small⟩
    intro x hx
    unfold Created setStatus
    have := i1.entries x hx
    by_cases hxs : x.2 = s
    · rw [hxs]; simpa [Created] using i2
    · rw [upd_ne _ _ hxs]; exact this
  | again _ _ s l1 c hp h1 h2 h3 h4 =>
    obtain ⟨i1, i2, i3⟩ := hi.pop hp
    refine ⟨i1.nodes, i1.walks, ?_, fun h => absurd h h2, hi.small⟩
    intro x hx
    rcases List.mem_append.mp hx with hx | hx
    · exact i1.entries x hx
    · rw [List.eq_of_mem_replicate hx]; exact i2
  | expand _ _ s l1 ops os _ _ hp h1 h2 h3 h4 h5 =>
    obtain ⟨i1, i2, i3⟩ := hi.pop hp
    refine (h5.inv hv (i1.close i2 rfl) ?_ h3 (hpr s ops os h4)).1
    unfold Created setStatus
    simpa [Created] using i2

/-! ### the model refines the abstract transitions -/

/-- an int or bit field overflows when the costs of `o` are added to those of `s` -/
def Overflow (w : World S) (infos : S → NodeInfo S) (s : S) : Prop :=
  ∃ o, (∃ l, w.ops s = some l ∧ o ∈ l) ∧ ((infos s).g + w.adj o ≥ 2 ^ 29 ∨ (infos s).realG + w.cost o ≥ 2 ^ 31)

theorem getG_created {infos : S → NodeInfo S} {s : S} (h : Created infos s) : (infos s).getG = some (infos s).g := by
  have h' : 0 ≤ (infos s).g := h
  unfold NodeInfo.getG; rw [if_pos h']

theorem plus_cases (a : Int) (c : Nat) : plus a c = some (a + c) ∨ (plus a c = none ∧ a + c ≥ 2 ^ 31) := by
  unfold plus
  split
  · exact Or.inl rfl
  · exact Or.inr ⟨rfl, by omega⟩

theorem updateParent_cases (w : World S) (infos : S → NodeInfo S) (s : S) (o : Nat) (st : Status) :
    (updateParent w infos s o st = some (childInfo w infos s o st) ∧ (infos s).g + w.adj o < 2 ^ 29) ∨
      (updateParent w infos s o st = none ∧ ((infos s).g + w.adj o ≥ 2 ^ 29 ∨ (infos s).realG + w.cost o ≥ 2 ^ 31)) := by
  unfold updateParent
  rcases plus_cases (infos s).g (w.adj o) with h | ⟨h, h'⟩
  · rcases plus_cases (infos s).realG (w.cost o) with i | ⟨i, i'⟩
    · rw [h, i]
      simp only
      split
      · exact Or.inl ⟨rfl, by assumption⟩
      · exact Or.inr ⟨rfl, Or.inl (by omega)⟩
    · rw [h, i]; exact Or.inr ⟨rfl, Or.inr i'⟩
  · rw [h]; exact Or.inr ⟨rfl, Or.inl (by omega)⟩

/-- why a step can fail: an evaluator does not return, or an overflow -/
def Problem (w : World S) (E : Env S σ) (infos : S → NodeInfo S) (s : S) : Prop := ¬ E.Total ∨ Overflow w infos s

/-- a successor is treated as described by `Trans`, or there is a problem -/
theorem successor_refines {w : World S} {valid : S → Prop} {E : Env S σ} (hE : E.Legal) {opts : Options} (A : OLSpec K S H rel cfg)
    {s t : S} {o : Nat} {ops : List Nat} {pref : Bool} {st : Eager S σ} {l : List (K × S)} (hR : A.R st.openList l) (hi : EInv w valid E st.infos l)
    (hs : Created st.infos s) (hops : w.ops s = some ops) (ho : o ∈ ops) :
    (∃ st' l', Eager.successor w E H rel opts s o t pref st = some st' ∧ A.R st'.openList l' ∧ Trans w E opts A s o t st.infos l st'.infos l') ∨
    (Eager.successor w E H rel opts s o t pref st = none ∧ Problem w E st.infos s) := by
  have hs0 : 0 ≤ (st.infos s).g := hs
  have hovf : (st.infos s).g + w.adj o ≥ 2 ^ 29 ∨ (st.infos s).realG + w.cost o ≥ 2 ^ 31 → Problem w E st.infos s := by
    intro h
    exact Or.inr ⟨o, ⟨ops, hops, ho⟩, h⟩
  unfold Eager.successor
  by_cases hd : (st.infos t).status = .deadEnd
  · rw [if_pos hd]
    exact Or.inl ⟨st, l, rfl, hR, .dead _ _ hd⟩
  rw [if_neg hd]
  have hsucc : (st.infos s).getG.bind (fun g => plus g (w.adj o)) = plus (st.infos s).g (w.adj o) := by
    rw [getG_created hs, Option.bind_some]
  by_cases hn : (st.infos t).status = .new
  · rw [if_pos hn]
    unfold Eager.newState
    rw [hsucc]
    rcases plus_cases (st.infos s).g (w.adj o) with hpl | ⟨hpl, hbig⟩
    · rw [hpl]
      simp only
      cases he : E.eval st.env t ((st.infos s).g + w.adj o) pref with
      | none =>
        by_cases h29 : (st.infos s).g + w.adj o < 2 ^ 29
        case neg => exact Or.inr ⟨rfl, hovf (Or.inl (by omega))⟩
        refine Or.inr ⟨rfl, Or.inl (fun hT => ?_)⟩
        obtain ⟨c, env', he'⟩ := hT.eval st.env t ((st.infos s).g + w.adj o) pref (by omega) h29
        rw [he'] at he; simp at he
      | some r =>
        obtain ⟨c, env'⟩ := r
        simp only
        have hev : E.Evals t ((st.infos s).g + w.adj o) c := ⟨_, _, _, he⟩
        by_cases hdc : st.openList.isDeadEnd rel c = true
        · rw [if_pos hdc]
          exact Or.inl ⟨_, l, rfl, hR, .newDead _ _ c hn hev ((A.dead _ _ c hR).mp hdc)⟩
        · rw [if_neg hdc]
          obtain ⟨ol, i1, i2⟩ := A.insert _ _ c t hR (hE.eval _ _ _ hev)
          rw [i1]
          unfold openNewNode
          rw [if_pos hn]
          rcases updateParent_cases w st.infos s o .opened with ⟨hup, h29⟩ | ⟨hup, hbig⟩
          · rw [hup]
            refine Or.inl ⟨_, _, rfl, ?_, .newOpen _ _ c hn hev (fun h => hdc ((A.dead _ _ c hR).mpr h)) h29⟩
            show A.R (if (E.progress env' c).1 then ol.boostPreferred else ol) _
            split
            · exact A.boost _ _ i2
            · exact i2
          · rw [hup]
            exact Or.inr ⟨rfl, hovf hbig⟩
    · rw [hpl]
      exact Or.inr ⟨rfl, hovf (Or.inl (by omega))⟩
  · rw [if_neg hn]
    have hlive : (st.infos t).status = .opened ∨ (st.infos t).status = .closed := by
      cases h : (st.infos t).status <;> simp_all
    have hct := hi.nodes.live t hlive
    unfold Eager.oldState
    rw [getG_created hct, hsucc]
    rcases plus_cases (st.infos s).g (w.adj o) with hpl | ⟨hpl, hbig⟩
    case inr => rw [hpl]; exact Or.inr ⟨rfl, hovf (Or.inl (by omega))⟩
    rw [hpl]
    simp only
    by_cases hg : (st.infos t).g > (st.infos s).g + w.adj o
    · rw [if_pos hg]
      have hre : ∀ i, i = updateParent w st.infos s o .opened → ((st.infos t).status = .opened ∨ (st.infos t).status = .closed ∧ opts.reopen = true) →
          (∃ st' l', Eager.reinsert E H rel t pref st i = some st' ∧ A.R st'.openList l' ∧ Trans w E opts A s o t st.infos l st'.infos l') ∨
          (Eager.reinsert E H rel t pref st i = none ∧ Problem w E st.infos s) := by
        rintro i rfl hc
        unfold Eager.reinsert
        rcases updateParent_cases w st.infos s o .opened with ⟨hup, h29⟩ | ⟨hup, hbig⟩
        case inr => rw [hup]; exact Or.inr ⟨rfl, hovf hbig⟩
        rw [hup]
        simp only
        have : (childInfo w st.infos s o .opened).getG = some ((st.infos s).g + w.adj o) := by
          unfold NodeInfo.getG childInfo
          rw [if_pos (by simp only; omega)]
        rw [this]
        simp only
        cases he : E.eval st.env t ((st.infos s).g + w.adj o) pref with
        | none =>
          refine Or.inr ⟨rfl, Or.inl (fun hT => ?_)⟩
          obtain ⟨c, env', he'⟩ := hT.eval st.env t ((st.infos s).g + w.adj o) pref (by omega) h29
          rw [he'] at he; simp at he
        | some r =>
          obtain ⟨c, env'⟩ := r
          simp only
          have hev : E.Evals t ((st.infos s).g + w.adj o) c := ⟨_, _, _, he⟩
          obtain ⟨ol, i1, i2⟩ := A.insert _ _ c t hR (hE.eval _ _ _ hev)
          rw [i1]
          exact Or.inl ⟨_, _, rfl, i2, .improve _ _ c hc hg hev h29⟩
      by_cases hop : (st.infos t).status = .opened
      · rw [if_pos hop]
        refine hre _ ?_ (Or.inl hop)
        unfold updateOpenNodeParent
        rw [if_pos hop]
      · rw [if_neg hop]
        have hcl : (st.infos t).status = .closed := by rcases hlive with h | h <;> simp_all
        by_cases hro : opts.reopen = true
        · rw [if_pos ⟨hcl, hro⟩]
          refine hre _ ?_ (Or.inr ⟨hcl, hro⟩)
          unfold reopenClosedNode
          rw [if_pos hcl]
        · rw [if_neg (by simp [hro])]
          unfold updateClosedNodeParent
          rw [if_pos hcl]
          rcases updateParent_cases w st.infos s o .closed with ⟨hup, h29⟩ | ⟨hup, hbig⟩
          · rw [hup]; exact Or.inl ⟨_, l, rfl, hR, .improveClosed _ _ hcl (by simpa using hro) hg h29⟩
          · rw [hup]; exact Or.inr ⟨rfl, hovf hbig⟩
    · rw [if_neg hg]
      exact Or.inl ⟨st, l, rfl, hR, .same _ _ hlive (by omega)⟩

theorem Eager.generate_refines {w : World S} {valid : S → Prop} (hv : w.Total valid) {E : Env S σ} (hE : E.Legal) {opts : Options} (A : OLSpec K S H rel cfg)
    {s : S} {ops : List Nat} (pr : List Nat) (hops : w.ops s = some ops) : ∀ (os : List Nat) (st : Eager S σ) (l : List (K × S)), A.R st.openList l →
    EInv w valid E st.infos l → Created st.infos s → (∀ o ∈ os, o ∈ ops) →
    (∃ st' l', Eager.generate w E H rel opts s pr os st = some st' ∧ A.R st'.openList l' ∧ Gen w E opts A s os st.infos l st'.infos l') ∨
    (Eager.generate w E H rel opts s pr os st = none ∧ Problem w E st.infos s)
  | [], st, l, hR, hi, hs, hos => Or.inl ⟨st, l, rfl, hR, .nil _ _⟩
  | o :: os, st, l, hR, hi, hs, hos => by
    unfold Eager.generate
    rcases plus_cases (st.infos s).realG (w.cost o) with hpl | ⟨hpl, hbig⟩
    case inr => rw [hpl]; exact Or.inr ⟨rfl, Or.inr ⟨o, ⟨ops, hops, hos o (by simp)⟩, Or.inr hbig⟩⟩
    rw [hpl]
    simp only
    by_cases hb : (st.infos s).realG + w.cost o ≥ opts.bound
    · rw [if_pos hb]
      rcases Eager.generate_refines hv hE A pr hops os st l hR hi hs (fun o ho => hos o (by simp [ho])) with ⟨st', l', h1, h2, h3⟩ | h
      · exact Or.inl ⟨st', l', h1, h2, .skip _ _ _ _ _ _ hb h3⟩
      · exact Or.inr h
    · rw [if_neg hb]
      obtain ⟨t, ht, _⟩ := hv.succ s ops o (hi.nodes.ok s hs).1 hops (hos o (by simp))
      rw [ht]
      simp only
      rcases successor_refines (st := { st with env := E.notifyTransition st.env s o t }) (pref := pr.contains o) (t := t) (opts := opts) hE A hR hi hs hops (hos o (by simp)) with ⟨st1, l1, h1, h2, h3⟩ | ⟨h1, h2⟩
      case inr => rw [h1]; exact Or.inr ⟨rfl, h2⟩
      rw [h1]
      simp only
      obtain ⟨i1, i2⟩ := h3.inv hv hi hs hops (hos o (by simp)) ht
      simp only at i2
      rcases Eager.generate_refines hv hE A pr hops os st1 l1 h2 i1 (by unfold Created; rw [i2]; exact hs) (fun o ho => hos o (by simp [ho])) with ⟨st', l', j1, j2, j3⟩ | ⟨h, h'⟩
      · exact Or.inl ⟨st', l', j1, j2, .step _ _ t _ _ _ _ _ _ (by omega) ht h3 j3⟩
      · right
        refine ⟨h, ?_⟩
        unfold Problem Overflow at h' ⊢
        rwa [i2] at h'

/-- the result of a step -/
inductive StepResult (w : World S) (E : Env S σ) (opts : Options) (A : OLSpec K S H rel cfg) (infos : S → NodeInfo S) (l : List (K × S)) :
    Option (Res (Eager S σ)) → Prop where
  | failed : l = [] → StepResult w E opts A infos l (some .failed)
  | solved (s : S) (l' : List (K × S)) (π : List Nat) : A.Pop l s l' → (infos s).status = .opened → w.goal s = some true → tracePath (setStatus infos s .closed) s = some π →
      StepResult w E opts A infos l (some (.solved π))
  | inProgress (st' : Eager S σ) (l' : List (K × S)) : A.R st'.openList l' → AStep w E opts A infos l st'.infos l' → StepResult w E opts A infos l (some (.inProgress st'))
  | problem (s : S) : Created infos s → Problem w E infos s → StepResult w E opts A infos l none

theorem closeAndExpand_refines {w : World S} {valid : S → Prop} (hv : w.Total valid) {E : Env S σ} (hE : E.Legal) (hpr : E.PrunesOnly) {opts : Options}
    (A : OLSpec K S H rel cfg) {st : Eager S σ} {l l' : List (K × S)} {s : S} (hR : A.R st.openList l') (hi : EInv w valid E st.infos l') (hp : A.Pop l s l')
    (hs : Created st.infos s) (hop : (st.infos s).status = .opened) :
    StepResult w E opts A st.infos l (Eager.closeAndExpand w E H rel opts s st) := by
  have hval := (hi.nodes.ok s hs).1
  unfold Eager.closeAndExpand closeNode
  rw [if_pos hop]
  obtain ⟨b, hb⟩ := hv.goal s hval
  rw [hb]
  cases b with
  | true =>
    simp only
    obtain ⟨π, h1, _, _⟩ := (hi.close hs rfl).nodes.trace (s := s) (by unfold Created setStatus; simpa [Created] using hs)
    have h1' : tracePath (upd st.infos s { status := .closed, g := (st.infos s).g, parent := (st.infos s).parent, op := (st.infos s).op, realG := (st.infos s).realG }) s = some π := h1
    rw [h1']
    exact .solved s l' π hp hop hb h1
  | false =>
    simp only
    unfold Eager.generateSuccessors
    obtain ⟨ops, hops⟩ := hv.ops s hval
    simp only [hops]
    have hg : (upd st.infos s { status := .closed, g := (st.infos s).g, parent := (st.infos s).parent, op := (st.infos s).op, realG := (st.infos s).realG } s).getG = some (st.infos s).g := by
      have : 0 ≤ (st.infos s).g := hs
      simp [NodeInfo.getG, this]
    rw [hg]
    simp only
    rcases Eager.generate_refines hv hE (opts := opts) A (s := s)
      (E.preferredOps (E.prune (E.fStatistics st.env s (st.infos s).g) s ops).2 s (st.infos s).g).1 hops
      (E.prune (E.fStatistics st.env s (st.infos s).g) s ops).1
      { st with infos := setStatus st.infos s .closed, env := (E.preferredOps (E.prune (E.fStatistics st.env s (st.infos s).g) s ops).2 s (st.infos s).g).2 }
      l' hR (hi.close hs rfl) (by unfold Created setStatus; simpa [Created] using hs) (hpr s ops _ ⟨_, rfl⟩) with ⟨st', l2, h1, h2, h3⟩ | ⟨h, h'⟩
    · unfold setStatus at h1
      rw [h1]
      exact .inProgress st' l2 h2 (.expand _ _ s l' ops _ _ _ hp hop hb hops ⟨_, rfl⟩ h3)
    · unfold setStatus at h
      rw [h]
      refine .problem s hs ?_
      rcases h' with h' | ⟨o, h1, h2⟩
      · exact Or.inl h'
      · exact Or.inr ⟨o, h1, by simpa [setStatus] using h2⟩

theorem step_refines {w : World S} {valid : S → Prop} (hv : w.Total valid) {E : Env S σ} (hE : E.Legal) (hpr : E.PrunesOnly) {opts : Options}
    (A : OLSpec K S H rel cfg) {st : Eager S σ} {l : List (K × S)} (hR : A.R st.openList l) (hi : EInv w valid E st.infos l) :
    StepResult w E opts A st.infos l (Eager.step w E H rel opts st) := by
  unfold Eager.step
  by_cases hl : l = []
  · rw [if_pos ((A.empty _ _ hR).mpr hl)]
    exact .failed hl
  rw [if_neg (by rw [A.empty _ _ hR]; exact hl)]
  obtain ⟨s, ol, rng', l', h1, hp, hR'⟩ := A.remove st.openList l st.rng hR hl
  rw [h1]
  simp only
  obtain ⟨i1, hs, hal⟩ := hi.pop hp
  unfold Eager.popped
  by_cases hcl : (st.infos s).status = .closed
  · simp only [hcl, if_true]
    exact .inProgress _ l' hR' (.closed _ _ s l' hp hcl)
  simp only [hcl, if_false, getG_created hs]
  have hnn := hi.not_new hs
  have hce : ∀ env, (st.infos s).status = .opened → StepResult w E opts A st.infos l (Eager.closeAndExpand w E H rel opts s { st with openList := ol, rng := rng', env := env }) := by
    intro env hop
    exact closeAndExpand_refines (st := { st with openList := ol, rng := rng', env := env }) hv hE hpr A hR' i1 hp hs hop
  cases hlz : E.lazyEvaluator with
  | none =>
    simp only
    refine hce st.env ?_
    have := hal hlz
    cases h : (st.infos s).status <;> simp_all
  | some ev =>
    simp only
    by_cases hd : (st.infos s).status = .deadEnd
    · simp only [hd, if_true]
      exact .inProgress _ l' hR' (.dead _ _ s l' hp hd (by simp [hlz]))
    simp only [hd, if_false]
    have hop : (st.infos s).status = .opened := by cases h : (st.infos s).status <;> simp_all
    cases hca : E.cachedEstimate st.env s with
    | none => exact hce st.env hop
    | some oldH =>
      simp only
      unfold Eager.reevaluate
      cases he : E.reeval st.env s (st.infos s).g with
      | none =>
        refine .problem s hs (Or.inl (fun hT => ?_))
        obtain ⟨c, env', he'⟩ := hT.reeval st.env s (st.infos s).g hs (hi.small s)
        rw [he'] at he; simp at he
      | some r =>
      obtain ⟨c, env'⟩ := r
      simp only
      have hre : E.Reevals s (st.infos s).g c := ⟨_, _, he⟩
      by_cases hdc : ol.isDeadEnd rel c = true
      · simp only [hdc, if_true]
        exact .inProgress _ l' hR' (.nowDead _ _ s l' c hp hop (by simp [hlz]) hre ((A.dead _ _ c hR').mp hdc))
      · simp only [hdc, if_false]
        by_cases hh : c.value ev ≠ oldH
        · simp only [hh, ne_eq, not_false_eq_true, if_true]
          obtain ⟨ol', j1, j2⟩ := A.insert _ _ c s hR' (hE.reeval _ _ _ hre)
          simp only [j1, Option.map_some]
          exact .inProgress _ _ j2 (.again _ _ s l' c hp hop (by simp [hlz]) hre (fun h => hdc ((A.dead _ _ c hR').mpr h)))
        · simp only [hh, if_false]
          exact hce env' hop

/-- the states of the search after initialization -/
inductive Start (w : World S) (E : Env S σ) (A : OLSpec K S H rel cfg) : (S → NodeInfo S) → List (K × S) → Prop where
  | deadEnd (c) : E.Evals w.init 0 c → Spec.DeadEnd rel c cfg → Start w E A (fun _ => .fresh) []
  | opened (c) : E.Evals w.init 0 c → ¬ Spec.DeadEnd rel c cfg →
      Start w E A (upd (fun _ => .fresh) w.init ⟨.opened, 0, none, none, 0⟩) (List.replicate (Spec.copies rel c cfg) (A.key c, w.init))

theorem Start.inv {w : World S} {valid : S → Prop} (hv : w.Total valid) {E : Env S σ} {A : OLSpec K S H rel cfg} {infos : S → NodeInfo S} {l : List (K × S)}
    (h : Start w E A infos l) : EInv w valid E infos l := by
  cases h with
  | deadEnd c _ _ =>
    refine ⟨nodeInv_fresh w valid, ?_, by simp, by simp, by simp [NodeInfo.fresh]⟩
    intro s hs; simp [Created, NodeInfo.fresh] at hs
  | opened c _ _ =>
    refine ⟨NodeInv.openInitial hv, WalkInv.openInitial w, ?_, ?_, fun x => by unfold upd; split <;> simp [NodeInfo.fresh]⟩
    · intro x hx
      rw [List.eq_of_mem_replicate hx]
      simp [Created]
    · intro _ x hx
      rw [List.eq_of_mem_replicate hx]
      simp

theorem initialize_refines {w : World S} {E : Env S σ} (hE : E.Legal)
    (A : OLSpec K S H rel cfg) (rng : Rng) (env : σ) :
    (∃ st l, Eager.initialize w E H rel cfg rng env = some st ∧ A.R st.openList l ∧ Start w E A st.infos l) ∨
    (Eager.initialize w E H rel cfg rng env = none ∧ ¬ E.Total) := by
  unfold Eager.initialize
  cases he : E.eval (E.notifyInitial env w.init) w.init 0 true with
  | none =>
    refine Or.inr ⟨rfl, fun hT => ?_⟩
    obtain ⟨c, env', he'⟩ := hT.eval (E.notifyInitial env w.init) w.init 0 true (by omega) (by omega)
    rw [he'] at he; simp at he
  | some r =>
  obtain ⟨c, env'⟩ := r
  have hev : E.Evals w.init 0 c := ⟨_, _, _, he⟩
  simp only
  left
  by_cases hd : (create S cfg).isDeadEnd rel c = true
  · rw [if_pos hd]
    exact ⟨_, [], rfl, A.create, .deadEnd c hev ((A.dead _ _ c A.create).mp hd)⟩
  · rw [if_neg hd]
    obtain ⟨ol, i1, i2⟩ := A.insert _ _ c w.init A.create (hE.eval _ _ _ hev)
    rw [i1]
    have : openInitial (NodeInfo.fresh (S := S)) = some ⟨.opened, 0, none, none, 0⟩ := rfl
    rw [this]
    refine ⟨_, _, rfl, i2, ?_⟩
    simp only [List.nil_append]
    exact .opened c hev (fun h => hd ((A.dead _ _ c A.create).mpr h))

/-- abstract states reachable by the search -/
inductive Reached (w : World S) (E : Env S σ) (opts : Options) (A : OLSpec K S H rel cfg) : (S → NodeInfo S) → List (K × S) → Prop where
  | start (infos : S → NodeInfo S) (l : List (K × S)) : Start w E A infos l → Reached w E opts A infos l
  | step (infos : S → NodeInfo S) (l : List (K × S)) (infos' : S → NodeInfo S) (l' : List (K × S)) :
      Reached w E opts A infos l → AStep w E opts A infos l infos' l' → Reached w E opts A infos' l'

theorem Reached.inv {w : World S} {valid : S → Prop} (hv : w.Total valid) {E : Env S σ} (hpr : E.PrunesOnly) {opts : Options} {A : OLSpec K S H rel cfg}
    {infos : S → NodeInfo S} {l : List (K × S)} (h : Reached w E opts A infos l) : EInv w valid E infos l := by
  induction h with
  | start infos l h => exact h.inv hv
  | step infos l infos' l' _ h ih => exact h.inv hv hpr ih

theorem run_reached {w : World S} {valid : S → Prop} (hv : w.Total valid) {E : Env S σ} (hE : E.Legal) (hpr : E.PrunesOnly) {opts : Options}
    (A : OLSpec K S H rel cfg) : ∀ (n : Nat) (st : Eager S σ) (l : List (K × S)), A.R st.openList l → Reached w E opts A st.infos l →
    ∃ infos' l', Reached w E opts A infos' l' ∧
      ((∃ st', runFor (Eager.step w E H rel opts) n st = some (.inProgress st') ∧ st'.infos = infos' ∧ A.R st'.openList l') ∨
        StepResult w E opts A infos' l' (runFor (Eager.step w E H rel opts) n st))
  | 0, st, l, hR, hr => ⟨st.infos, l, hr, Or.inl ⟨st, rfl, rfl, hR⟩⟩
  | n + 1, st, l, hR, hr => by
    have hs := step_refines hv hE hpr (opts := opts) A hR (hr.inv hv hpr)
    simp only [runFor]
    generalize Eager.step w E H rel opts st = r at hs
    cases hs with
    | failed h => exact ⟨st.infos, l, hr, Or.inr (.failed h)⟩
    | solved s l' π h1 h2 h3 h4 => exact ⟨st.infos, l, hr, Or.inr (.solved s l' π h1 h2 h3 h4)⟩
    | problem s h1 h2 => exact ⟨st.infos, l, hr, Or.inr (.problem s h1 h2)⟩
    | inProgress st' l' h1 h2 =>
      exact run_reached hv hE hpr A n st' l' h1 (.step _ _ _ _ hr h2)

/-- every run of the search ends in a state reachable by abstract steps, unless an
evaluator does not return -/
theorem search_reached {w : World S} {valid : S → Prop} (hv : w.Total valid) {E : Env S σ} (hE : E.Legal) (hpr : E.PrunesOnly) {opts : Options}
    (A : OLSpec K S H rel cfg) (rng : Rng) (env : σ) (n : Nat) :
    (∃ infos l, Reached w E opts A infos l ∧
      ((∃ st, Eager.search w E H rel opts cfg rng env n = some (.inProgress st) ∧ st.infos = infos ∧ A.R st.openList l) ∨
        StepResult w E opts A infos l (Eager.search w E H rel opts cfg rng env n))) ∨
    (Eager.search w E H rel opts cfg rng env n = none ∧ ¬ E.Total) := by
  unfold Eager.search
  rcases initialize_refines hE A rng env (w := w) with ⟨st, l, h1, h2, h3⟩ | ⟨h1, h2⟩
  · rw [h1]
    exact Or.inl (run_reached hv hE hpr A n st l h2 (.start _ _ h3))
  · rw [h1]
    exact Or.inr ⟨rfl, h2⟩

end Verif.Search
