import Verif.Spec.EhcSearch
import Verif.Lemmas.LazyResults

/- Enforced hill climbing: invariants. -/
namespace Verif.Search
open Verif.OpenList Verif.OrderedSet
set_option inductive.autoPromoteIndices false

variable {S σ K : Type} [DecidableEq S] {H : StdHeap (S × Nat)} {cfg : Cfg}

theorem cfg_wf (opts : HOptions) : Spec.WF opts.cfg := by
  unfold HOptions.cfg
  split <;> simp [Spec.WF]

theorem insertEdges_ehc {w : World S} (A : OLSpec K (S × Nat) H (fun _ => true) cfg) (s : S) (g : Int) (h0 : 0 ≤ g) (p : Nat → Bool) :
    ∀ (os : List Nat) (ol : OL (S × Nat)) (l : List (K × (S × Nat))), A.R ol l →
    (∃ ol' add, Ehc.insertEdges w H s g p os ol = some ol' ∧ A.R ol' (l ++ add) ∧ ∀ x ∈ add, x.2.1 = s ∧ x.2.2 ∈ os) ∨
    (Ehc.insertEdges w H s g p os ol = none ∧ ∃ o ∈ os, g + w.adj o ≥ 2 ^ 31)
  | [], ol, l, hR => Or.inl ⟨ol, [], rfl, by simpa using hR, by simp⟩
  | o :: os, ol, l, hR => by
    unfold Ehc.insertEdges
    rcases plus_cases g (w.adj o) with hpl | ⟨hpl, hbig⟩
    case inr => rw [hpl]; exact Or.inr ⟨rfl, o, by simp, hbig⟩
    rw [hpl]
    simp only
    have hleg : LegalCtx (edgeCtx (g + w.adj o) (p o)) := by
      intro ev
      unfold edgeCtx intMin
      simp only
      split
      · omega
      · split <;> omega
    obtain ⟨ol', i1, i2⟩ := A.insert _ _ _ (s, o) hR hleg
    rw [i1]
    simp only
    rcases insertEdges_ehc A s g h0 p os ol' _ i2 with ⟨ol2, add, j1, j2, j3⟩ | ⟨j1, o', j2, j3⟩
    · left
      refine ⟨ol2, List.replicate (Spec.copies (fun _ => true) (edgeCtx (g + w.adj o) (p o)) cfg) (A.key (edgeCtx (g + w.adj o) (p o)), (s, o)) ++ add, j1, by rw [← List.append_assoc]; exact j2, ?_⟩
      intro x hx
      rcases List.mem_append.mp hx with hx | hx
      · rw [List.eq_of_mem_replicate hx]; exact ⟨rfl, by simp⟩
      · obtain ⟨k1, k2⟩ := j3 x hx
        exact ⟨k1, by simp [k2]⟩
    · exact Or.inr ⟨j1, o', by simp [j2], j3⟩

/-- the invariant of enforced hill climbing -/
structure HInv (w : World S) (valid : S → Prop) (opts : HOptions) (st : Ehc S σ) (l : List (K × (S × Nat))) : Prop where
  nodes : NodeInv w valid st.infos
  walks : WalkInv w st.infos
  exact : Exact w st.infos
  bound : ∀ s, Created st.infos s → s ≠ w.init → (st.infos s).realG < opts.bound
  entries : ∀ x ∈ l, EdgeOK w st.infos x.2.1 x.2.2
  cur : st.atStep = true → (st.infos st.cur).status = .opened
  start : 0 ≤ st.startG

/-- why a step can fail -/
def HProblem (w : World S) (E : HEnv S σ) : Prop := ¬ E.Total ∨ ∃ (infos : S → NodeInfo S) (s : S), WalkInv w infos ∧ Created infos s ∧ Overflow w infos s

/-- what a step does to the measures -/
def HProgress (states : List S) (st st' : Ehc S σ) (l l' : List (K × (S × Nat))) : Prop :=
  numNew states st'.infos < numNew states st.infos ∨
    numNew states st'.infos = numNew states st.infos ∧ (st.atStep = true ∧ st'.atStep = false ∨ st.atStep = st'.atStep ∧ l'.length < l.length)

/-- the current state changes only if its value decreases -/
def HPhase (st st' : Ehc S σ) : Prop := st'.cur = st.cur ∧ st'.curH = st.curH ∨ st'.curH < st.curH

inductive HResult (w : World S) (valid : S → Prop) (E : HEnv S σ) (opts : HOptions) (A : OLSpec K (S × Nat) H (fun _ => true) cfg) (states : List S) (st : Ehc S σ) (l : List (K × (S × Nat))) :
    Option (Res (Ehc S σ)) → Prop where
  | failed : HResult w valid E opts A states st l (some .failed)
  | solved (π : List Nat) : Created st.infos st.cur → w.goal st.cur = some true → tracePath st.infos st.cur = some π → HResult w valid E opts A states st l (some (.solved π))
  | inProgress (st' : Ehc S σ) (l' : List (K × (S × Nat))) : A.R st'.openList l' → HInv w valid opts st' l' → HProgress states st st' l l' → HPhase st st' →
      HResult w valid E opts A states st l (some (.inProgress st'))
  | problem : HProblem w E → HResult w valid E opts A states st l none

theorem Exact.child {w : World S} {valid : S → Prop} {infos : S → NodeInfo S} (hn : NodeInv w valid infos) (hx : Exact w infos) {p t : S} {o : Nat} {st : Status} (hp : Created infos p)
    (hnc : ¬ Created infos t) : Exact w (upd infos t (childInfo w infos p o st)) := by
  intro s q o' hs hq ho
  by_cases hst : s = t
  · subst hst
    rw [upd_same] at hq ho ⊢
    simp only [childInfo, Option.some.injEq] at hq ho
    subst hq; subst ho
    have : p ≠ s := by rintro rfl; exact hnc hp
    rw [upd_ne _ _ this]
    rfl
  · unfold Created at hs
    rw [upd_ne _ _ hst] at hs hq ho ⊢
    have : q ≠ t := by
      rintro rfl
      obtain ⟨_, h | ⟨_, p', o', l', k1, _, k2, _⟩⟩ := hn.ok s hs
      · rw [h.2.1] at hq; simp at hq
      · rw [k1] at hq
        simp only [Option.some.injEq] at hq
        rw [hq] at k2
        exact hnc k2
    rw [upd_ne _ _ this]
    exact hx s q o' hs hq ho

theorem operators_ehc {w : World S} {E : HEnv S σ} (hE : E.Legal w) (opts : HOptions) {s : S} {ops : List Nat} (hops : w.ops s = some ops) (env : σ) :
    ∃ os p, Ehc.operators w opts (Ehc.preferred E opts env s).1 s = some (os, p) ∧ ∀ o ∈ os, o ∈ ops := by
  unfold Ehc.operators
  split
  · rename_i h
    simp only [Bool.and_eq_true] at h
    refine ⟨_, _, rfl, fun o ho => ?_⟩
    unfold Ehc.preferred at ho
    rw [if_pos h.1] at ho
    simp only at ho
    obtain ⟨_, k2⟩ := foldl_insert_mem (E.preferredOps env s).1 OSet.new new_mem
    rw [k2] at ho
    rcases ho with ho | ho
    · simp [OSet.new] at ho
    · exact hE env s ops hops o ho
  · rw [hops]
    exact ⟨ops, _, rfl, fun o ho => ho⟩

theorem expand_ehc {w : World S} {valid : S → Prop} (hv : w.Total valid) {E : HEnv S σ} (hE : E.Legal w) {opts : HOptions} (A : OLSpec K (S × Nat) H (fun _ => true) cfg)
    {st : Ehc S σ} {l : List (K × (S × Nat))} (hR : A.R st.openList l) {s : S} (hs : (st.infos s).status = .opened) (hn : NodeInv w valid st.infos) :
    (∃ ol env add, Ehc.expand w E H opts s st = some { st with infos := setStatus st.infos s .closed, openList := ol, env := env } ∧ A.R ol (l ++ add) ∧ ∀ x ∈ add, EdgeOK w st.infos x.2.1 x.2.2) ∨
    (Ehc.expand w E H opts s st = none ∧ Overflow w st.infos s) := by
  have hc : Created st.infos s := hn.live s (Or.inl hs)
  obtain ⟨ops, hops⟩ := hv.ops s (hn.ok s hc).1
  obtain ⟨os, p, h1, h2⟩ := operators_ehc hE opts hops st.env
  unfold Ehc.expand
  rw [getG_created hc, h1]
  simp only
  rcases insertEdges_ehc (w := w) A s (st.infos s).g hc p os st.openList l hR with ⟨ol', add, j1, j2, j3⟩ | ⟨j1, o, j2, j3⟩
  · left
    refine ⟨ol', (Ehc.preferred E opts st.env s).2, add, ?_, j2, ?_⟩
    · rw [j1]; unfold closeNode; rw [if_pos hs]; rfl
    · intro x hx
      obtain ⟨k1, k2⟩ := j3 x hx
      rw [k1]
      exact ⟨hc, ops, hops, h2 _ k2⟩
  · right
    refine ⟨by rw [j1], o, ⟨ops, hops, h2 _ j2⟩, Or.inl (by omega)⟩

/-- closing a node in the invariant -/
theorem HInv.close {w : World S} {valid : S → Prop} {opts : HOptions} {st : Ehc S σ} {l add : List (K × (S × Nat))} (hi : HInv w valid opts st l) {s : S} (hs : Created st.infos s)
    (hadd : ∀ x ∈ add, EdgeOK w st.infos x.2.1 x.2.2) {ol : OL (S × Nat)} {env : σ} {b : Bool} (hb : b = false) :
    HInv w valid opts { st with infos := setStatus st.infos s .closed, openList := ol, env := env, atStep := b } (l ++ add) where
  nodes := hi.nodes.setStatus (fun _ => hs) (by simp)
  walks := hi.walks.setStatus
  exact := hi.exact.setStatus _ _
  bound x hx hne := by
    unfold Created at hx
    rw [setStatus_g] at hx
    rw [setStatus_realG]
    exact hi.bound x hx hne
  entries x hx := by
    have : EdgeOK w st.infos x.2.1 x.2.2 := by
      rcases List.mem_append.mp hx with hx | hx
      · exact hi.entries x hx
      · exact hadd x hx
    exact ⟨by unfold Created; rw [setStatus_g]; exact this.1, this.2⟩
  cur h := by simp only [hb] at h; simp at h
  start := hi.start

theorem numNew_close {states : List S} {infos : S → NodeInfo S} {s : S} (hs : (infos s).status = .opened) : numNew states (setStatus infos s .closed) = numNew states infos :=
  numNew_upd_eq (by simp [hs]) (by simp)

theorem ehcStart_refines {w : World S} {valid : S → Prop} (hv : w.Total valid) {E : HEnv S σ} (hE : E.Legal w) {opts : HOptions} (A : OLSpec K (S × Nat) H (fun _ => true) cfg) (states : List S)
    {st : Ehc S σ} {l : List (K × (S × Nat))} (hR : A.R st.openList l) (hi : HInv w valid opts st l) (hat : st.atStep = true) :
    HResult w valid E opts A states st l (Ehc.start w E H opts st) := by
  have hop := hi.cur hat
  have hc : Created st.infos st.cur := hi.nodes.live _ (Or.inl hop)
  obtain ⟨b, hb⟩ := hv.goal _ (hi.nodes.ok _ hc).1
  unfold Ehc.start
  rw [hb]
  cases b with
  | true =>
    simp only
    obtain ⟨π, h1, _⟩ := hi.nodes.trace hc
    rw [h1]
    exact .solved π hc hb h1
  | false =>
    simp only
    rcases expand_ehc hv hE (opts := opts) A (st := { st with env := E.progress st.env }) hR hop hi.nodes with ⟨ol, env, add, j1, j2, j3⟩ | ⟨j1, j2⟩
    · rw [j1]
      refine .inProgress _ (l ++ add) j2 (hi.close hc j3 rfl) ?_ (Or.inl ⟨rfl, rfl⟩)
      exact Or.inr ⟨numNew_close hop, Or.inl ⟨hat, rfl⟩⟩
    · rw [j1]
      exact .problem (Or.inr ⟨_, _, hi.walks, hc, j2⟩)

theorem ehcIteration_refines {w : World S} {valid : S → Prop} (hv : w.Total valid) {E : HEnv S σ} (hE : E.Legal w) {opts : HOptions} (A : OLSpec K (S × Nat) H (fun _ => true) cfg) {states : List S}
    (hst : ∀ s, valid s → s ∈ states) {st : Ehc S σ} {l : List (K × (S × Nat))} (hR : A.R st.openList l) (hi : HInv w valid opts st l) (hat : st.atStep = false) :
    HResult w valid E opts A states st l (Ehc.iteration w E H opts st) := by
  unfold Ehc.iteration
  by_cases he : st.openList.empty = true
  · rw [if_pos he]; exact .failed
  rw [if_neg he]
  have hne : l ≠ [] := fun h => he ((A.empty _ _ hR).mpr h)
  obtain ⟨⟨p, o⟩, ol, rng, l', r1, r2, r3⟩ := A.remove _ _ st.rng hR hne
  rw [r1]
  simp only
  obtain ⟨k, hk⟩ := A.popPerm _ _ _ r2
  have hlen : l'.length < l.length := by
    have := hk.length_eq
    simp at this; omega
  have hent : ∀ x ∈ l', EdgeOK w st.infos x.2.1 x.2.2 := fun x hx => hi.entries x (hk.symm.subset (by simp [hx]))
  obtain ⟨hpc, ops, hops, ho⟩ := hi.entries (k, (p, o)) (hk.symm.subset (by simp))
  simp only at hpc hops ho
  have hp0 : 0 ≤ (st.infos p).g := hpc
  obtain ⟨t, ht, htv⟩ := hv.succ p ops o (hi.nodes.ok p hpc).1 hops ho
  have over : ∀ (h : (st.infos p).g + w.adj o ≥ 2 ^ 29 ∨ (st.infos p).realG + w.cost o ≥ 2 ^ 31), HProblem w E := fun h =>
    Or.inr ⟨_, p, hi.walks, hpc, o, ⟨ops, hops, ho⟩, h⟩
  have hskip : ∀ env, HResult w valid E opts A states st l (some (.inProgress { st with openList := ol, rng := rng, env := env })) := fun env =>
    .inProgress _ l' r3 ⟨hi.nodes, hi.walks, hi.exact, hi.bound, hent, hi.cur, hi.start⟩ (Or.inr ⟨rfl, Or.inr ⟨rfl, hlen⟩⟩) (Or.inl ⟨rfl, rfl⟩)
  unfold Ehc.edge
  simp only [getG_created hpc, Option.bind_some]
  have hs0 := hi.start
  rcases plus_cases ((st.infos p).g - st.startG) (w.adj o) with hpl | ⟨hpl, hbig⟩
  case inr => rw [hpl]; exact .problem (over (Or.inl (by omega)))
  rcases plus_cases (st.infos p).realG (w.cost o) with hpr | ⟨hpr, hbig⟩
  case inr => rw [hpl, hpr]; exact .problem (over (Or.inr hbig))
  rw [hpl, hpr]
  simp only
  by_cases hb : (st.infos p).realG + w.cost o ≥ opts.bound
  · rw [if_pos hb]; exact hskip st.env
  rw [if_neg hb, hops, ht]
  simp only [ho, if_true]
  unfold Ehc.successor
  simp only
  by_cases hnew : (st.infos t).status = .new
  case neg => rw [if_neg hnew]; exact hskip st.env
  rw [if_pos hnew]
  have htn : ¬ Created st.infos t := hi.nodes.fresh t hnew
  cases hev : E.eval (E.notifyTransition st.env p o t) t with
  | none =>
    refine .problem (Or.inl (fun hT => ?_))
    obtain ⟨h, env', hc⟩ := hT (E.notifyTransition st.env p o t) t
    rw [hev] at hc; simp at hc
  | some r =>
    obtain ⟨h, env'⟩ := r
    simp only
    by_cases hinf : h = infty
    · rw [if_pos hinf]
      refine .inProgress _ l' r3 ⟨hi.nodes.setStatus (by simp) (by simp), hi.walks.setStatus, hi.exact.setStatus t .deadEnd, ?_, ?_, ?_, hi.start⟩ (Or.inl ?_) (Or.inl ⟨rfl, rfl⟩)
      · intro x hx hne
        have hx' : Created (setStatus st.infos t .deadEnd) x := hx
        unfold Created at hx'
        rw [setStatus_g] at hx'
        have := hi.bound x hx' hne
        rw [← setStatus_realG (s := t) (st := .deadEnd) (infos := st.infos)] at this
        exact this
      · intro x hx
        refine ⟨?_, (hent x hx).2⟩
        have := (hent x hx).1
        unfold Created at this ⊢
        rw [← setStatus_g (s := t) (st := .deadEnd) (infos := st.infos)] at this
        exact this
      · simp only [hat]; simp
      · exact numNew_upd_lt (hst t htv) hnew (by simp [markDeadEnd])
    · rw [if_neg hinf]
      unfold Ehc.openState openNewNode
      rw [if_pos hnew]
      rcases updateParent_cases w st.infos p o .opened with ⟨hup, h29⟩ | ⟨hup, hbig⟩
      case inr => simp only [hup]; exact .problem (over hbig)
      simp only [hup]
      have hinit : t ≠ w.init ∨ Created st.infos t := by
        left; rintro rfl; exact htn (hi.nodes.init_created hpc)
      have hn' : NodeInv w valid (upd st.infos t (childInfo w st.infos p o .opened)) := hi.nodes.setParent hv hpc hops ho ht rfl hinit (fun h => absurd h htn) (Or.inl rfl)
      have hw' : WalkInv w (upd st.infos t (childInfo w st.infos p o .opened)) := hi.walks.setParent hpc hops ho ht rfl rfl (fun h => absurd h htn)
      have hx' : Exact w (upd st.infos t (childInfo w st.infos p o .opened)) := hi.exact.child hi.nodes hpc htn
      have hb' : ∀ s, Created (upd st.infos t (childInfo w st.infos p o .opened)) s → s ≠ w.init → (upd st.infos t (childInfo w st.infos p o .opened) s).realG < opts.bound := by
        intro s hs hne
        by_cases hst' : s = t
        · rw [hst', upd_same]; simp only [childInfo]; omega
        · unfold Created at hs; rw [upd_ne _ _ hst'] at hs ⊢; exact hi.bound s hs hne
      have hopen : (upd st.infos t (childInfo w st.infos p o .opened) t).status = .opened := by simp [childInfo]
      have hcr : ∀ x, Created st.infos x → Created (upd st.infos t (childInfo w st.infos p o .opened)) x := fun x hx => created_mono_child hpc (Or.inl hx)
      have hnum : numNew states (upd st.infos t (childInfo w st.infos p o .opened)) < numNew states st.infos := numNew_upd_lt (hst t htv) hnew (by simp [childInfo])
      by_cases hlt : h < st.curH
      · rw [if_pos hlt]
        refine .inProgress _ [] (A.clear _ _ r3) ⟨hn', hw', hx', hb', by simp, fun _ => hopen, ?_⟩ (Or.inl hnum) (Or.inr hlt)
        simp only [childInfo]; omega
      · rw [if_neg hlt]
        rcases expand_ehc hv hE (opts := opts) A (st := { st with infos := upd st.infos t (childInfo w st.infos p o .opened), openList := ol, rng := rng, env := env' }) r3 hopen hn' with
          ⟨ol2, env2, add, j1, j2, j3⟩ | ⟨j1, j2⟩
        · rw [j1]
          have hi2 : HInv w valid opts { st with infos := upd st.infos t (childInfo w st.infos p o .opened), openList := ol, rng := rng, env := env' } l' :=
            ⟨hn', hw', hx', hb', fun x hx => ⟨hcr _ (hent x hx).1, (hent x hx).2⟩, by simp only [hat]; simp, hi.start⟩
          refine .inProgress _ (l' ++ add) j2 (hi2.close (hn'.live t (Or.inl hopen)) j3 hat) (Or.inl ?_) (Or.inl ⟨rfl, rfl⟩)
          simp only [numNew_close hopen]
          exact hnum
        · rw [j1]
          exact .problem (Or.inr ⟨_, _, hw', hn'.live t (Or.inl hopen), j2⟩)

theorem ehcStep_refines {w : World S} {valid : S → Prop} (hv : w.Total valid) {E : HEnv S σ} (hE : E.Legal w) {opts : HOptions} (A : OLSpec K (S × Nat) H (fun _ => true) cfg) {states : List S}
    (hst : ∀ s, valid s → s ∈ states) {st : Ehc S σ} {l : List (K × (S × Nat))} (hR : A.R st.openList l) (hi : HInv w valid opts st l) :
    HResult w valid E opts A states st l (Ehc.step w E H opts st) := by
  unfold Ehc.step
  by_cases hat : st.atStep = true
  · rw [if_pos hat]; exact ehcStart_refines hv hE A states hR hi hat
  · rw [if_neg hat]; exact ehcIteration_refines hv hE A hst hR hi (by simpa using hat)

theorem ehc_initial {w : World S} {valid : S → Prop} (hv : w.Total valid) {opts : HOptions} (rng : Rng) (env : σ) (h : Int) :
    HInv w valid opts (Ehc.initial w opts rng env h) ([] : List (K × (S × Nat))) where
  nodes := .openInitial hv
  walks := .openInitial w
  exact s p o hs hp ho := by
    simp only [Ehc.initial] at hp
    by_cases e : s = w.init
    · rw [e, upd_same] at hp; simp at hp
    · rw [upd_ne _ _ e] at hp; simp [NodeInfo.fresh] at hp
  bound s hs hne := by
    simp only [Ehc.initial, Created, upd_ne _ _ hne] at hs
    simp [NodeInfo.fresh] at hs
  entries := by simp
  cur _ := by simp [Ehc.initial]
  start := le_refl _

/-- the result of a run: the invariant holds in the last state in which the search was in
progress -/
theorem ehcRun {w : World S} {valid : S → Prop} (hv : w.Total valid) {E : HEnv S σ} (hE : E.Legal w) {opts : HOptions} (A : OLSpec K (S × Nat) H (fun _ => true) cfg) {states : List S}
    (hst : ∀ s, valid s → s ∈ states) : ∀ (n : Nat) (st : Ehc S σ) (l : List (K × (S × Nat))), A.R st.openList l → HInv w valid opts st l →
      (∃ st' l', runFor (Ehc.step w E H opts) n st = some (.inProgress st') ∧ A.R st'.openList l' ∧ HInv w valid opts st' l' ∧ HPhase st st') ∨
      (∃ st' l', HInv w valid opts st' l' ∧ HResult w valid E opts A states st' l' (runFor (Ehc.step w E H opts) n st) ∧ ∀ st'', runFor (Ehc.step w E H opts) n st ≠ some (.inProgress st''))
  | 0, st, l, hR, hi => Or.inl ⟨st, l, rfl, hR, hi, Or.inl ⟨rfl, rfl⟩⟩
  | n + 1, st, l, hR, hi => by
    have hs := ehcStep_refines hv hE (opts := opts) A hst hR hi
    generalize hstep : Ehc.step w E H opts st = r at hs
    have hs' := hs
    cases hs with
    | failed => right; exact ⟨st, l, hi, by simpa [runFor, hstep] using hs', by simp [runFor, hstep]⟩
    | solved π h1 h2 h3 => right; exact ⟨st, l, hi, by simpa [runFor, hstep] using hs', by simp [runFor, hstep]⟩
    | problem h1 => right; exact ⟨st, l, hi, by simpa [runFor, hstep] using hs', by simp [runFor, hstep]⟩
    | inProgress st1 l1 h1 h2 h3 h4 =>
      rcases ehcRun hv hE A hst n st1 l1 h1 h2 with ⟨st', l', k1, k2, k3, k4⟩ | ⟨st', l', k1, k2, k3⟩
      · left
        refine ⟨st', l', by simpa [runFor, hstep] using k1, k2, k3, ?_⟩
        rcases h4 with ⟨a, b⟩ | a <;> rcases k4 with ⟨c, d⟩ | c
        · exact Or.inl ⟨c.trans a, d.trans b⟩
        · exact Or.inr (by omega)
        · exact Or.inr (by omega)
        · exact Or.inr (by omega)
      · right
        exact ⟨st', l', k1, by simpa [runFor, hstep] using k2, by simpa [runFor, hstep] using k3⟩

theorem ehcRun_terminates {w : World S} {valid : S → Prop} (hv : w.Total valid) {E : HEnv S σ} (hE : E.Legal w) {opts : HOptions} (A : OLSpec K (S × Nat) H (fun _ => true) cfg) {states : List S}
    (hst : ∀ s, valid s → s ∈ states) : ∀ (a b c : Nat) (st : Ehc S σ) (l : List (K × (S × Nat))), numNew states st.infos = a → (if st.atStep then 1 else 0) = b → l.length = c →
      A.R st.openList l → HInv w valid opts st l → ∃ n, ∀ st', runFor (Ehc.step w E H opts) n st ≠ some (.inProgress st') := by
  intro a
  induction a using Nat.strong_induction_on with
  | _ a iha =>
  intro b
  induction b using Nat.strong_induction_on with
  | _ b ihb =>
  intro c
  induction c using Nat.strong_induction_on with
  | _ c ihc =>
  intro st l ha hb hc hR hi
  have hs := ehcStep_refines hv hE (opts := opts) A hst hR hi
  generalize hstep : Ehc.step w E H opts st = r at hs
  cases hs with
  | failed => exact ⟨1, by simp [runFor, hstep]⟩
  | solved π h1 h2 h3 => exact ⟨1, by simp [runFor, hstep]⟩
  | problem h1 => exact ⟨1, by simp [runFor, hstep]⟩
  | inProgress st1 l1 h1 h2 h3 h4 =>
    have : ∃ n, ∀ st', runFor (Ehc.step w E H opts) n st1 ≠ some (.inProgress st') := by
      rcases h3 with h | ⟨h, ⟨h', h''⟩ | ⟨h', h''⟩⟩
      · exact iha _ (by omega) _ _ st1 l1 rfl rfl rfl h1 h2
      · exact ihb 0 (by rw [h'] at hb; simp at hb; omega) _ st1 l1 (by omega) (by simp [h'']) rfl h1 h2
      · exact ihc _ (by omega) st1 l1 (by omega) (by rw [← h']; exact hb) rfl h1 h2
    obtain ⟨n, hn⟩ := this
    exact ⟨n + 1, by simpa [runFor, hstep] using hn⟩

end Verif.Search
