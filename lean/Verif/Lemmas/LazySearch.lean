import Verif.Spec.LazySearch
import Verif.Lemmas.EagerResults

/- Lazy search on the level of node information and stored edges. -/
namespace Verif.Search
open Verif.OpenList Verif.OrderedSet
set_option inductive.autoPromoteIndices false

variable {S σ K : Type} [DecidableEq S] {H : StdHeap (S × Nat)} {rel : Nat → Bool} {cfg : Cfg}

/-! ### the operators of an expansion -/

theorem foldl_insert_mem : ∀ (l : List Nat) (s : OSet Nat), (∀ x, x ∈ s.ordered ↔ x ∈ s.unordered) →
    (∀ x, x ∈ (l.foldl OSet.insert s).ordered ↔ x ∈ (l.foldl OSet.insert s).unordered) ∧ ∀ x, x ∈ (l.foldl OSet.insert s).ordered ↔ x ∈ s.ordered ∨ x ∈ l
  | [], s, h => ⟨h, by simp⟩
  | a :: l, s, h => by
    have h1 : ∀ x, x ∈ (s.insert a).ordered ↔ x ∈ s.ordered ∨ x = a := by
      intro x
      unfold OSet.insert hsInsert
      by_cases ha : a ∈ s.unordered
      · have : a ∈ s.ordered := (h a).mpr ha
        simp only [ha, if_true]
        constructor
        · exact Or.inl
        · rintro (h | rfl)
          · exact h
          · exact this
      · simp [ha]
    have h2 : ∀ x, x ∈ (s.insert a).ordered ↔ x ∈ (s.insert a).unordered := by
      intro x
      rw [h1]
      unfold OSet.insert hsInsert
      by_cases ha : a ∈ s.unordered
      · simp only [ha, if_true, h]
        constructor
        · rintro (h | rfl)
          · exact h
          · exact ha
        · exact Or.inl
      · simp only [ha, if_false, h, List.mem_cons]
        exact Or.comm
    obtain ⟨i1, i2⟩ := foldl_insert_mem l (s.insert a) h2
    refine ⟨i1, fun x => ?_⟩
    rw [List.foldl_cons, i2, h1]
    simp only [List.mem_cons]
    exact or_assoc

theorem new_mem : ∀ x : Nat, x ∈ (OSet.new : OSet Nat).ordered ↔ x ∈ (OSet.new : OSet Nat).unordered := by simp [OSet.new]

theorem mem_shuffleIf {w : World S} {E : LEnv S σ} (hE : E.Legal w) (r : Bool) (env : σ) (l : List Nat) (x : Nat) : x ∈ (shuffleIf E r env l).1 ↔ x ∈ l := by
  unfold shuffleIf
  split
  · exact (hE.shuffle env l).mem_iff
  · exact Iff.rfl

theorem mem_successorOps {w : World S} {E : LEnv S σ} (hE : E.Legal w) (opts : LOptions) {s : S} {ops : List Nat} (hops : w.ops s = some ops) (g : Int) (env : σ) (o : Nat) :
    o ∈ (Lazy.successorOps E opts (Lazy.preferred E opts s g env).1 ops (Lazy.preferred E opts s g env).2).1 ↔ o ∈ ops := by
  unfold Lazy.successorOps
  by_cases hp : opts.preferredFirst = true
  · rw [if_pos hp]
    simp only [OSet.popAsVector]
    obtain ⟨i1, i2⟩ := foldl_insert_mem (Lazy.preferred E opts s g env).1.ordered OSet.new new_mem
    obtain ⟨j1, j2⟩ := foldl_insert_mem (shuffleIf E opts.randomize (Lazy.preferred E opts s g env).2 ops).1 _ i1
    rw [j2, i2, mem_shuffleIf hE]
    constructor
    · rintro ((h | h) | h)
      · simp [OSet.new] at h
      · unfold Lazy.preferred at h
        simp only [mem_shuffleIf hE] at h
        obtain ⟨_, k2⟩ := foldl_insert_mem (E.preferredOps env s g).1 OSet.new new_mem
        rw [k2] at h
        rcases h with h | h
        · simp [OSet.new] at h
        · exact hE.preferred env s g ops hops o h
      · exact h
    · exact Or.inr
  · rw [if_neg hp]
    exact mem_shuffleIf hE _ _ _ _

/-! ### abstract transitions -/

/-- the edges added when `s` is expanded with the operators `os` -/
structure Edges (w : World S) (E : LEnv S σ) (bound : Int) (A : OLSpec K (S × Nat) H rel cfg) (s : S) (g rg : Int) (os : List Nat) (add : List (K × (S × Nat))) : Prop where
  mem : ∀ x ∈ add, x.2.1 = s ∧ x.2.2 ∈ os ∧ rg + w.cost x.2.2 < bound
  all : ∀ o ∈ os, rg + w.cost o < bound → ∃ c, E.EdgeEvals s (g + w.adj o) c ∧ (Spec.copies rel c cfg = 0 ∨ (A.key c, (s, o)) ∈ add)

/-- why a step can fail -/
def LProblem (w : World S) (E : LEnv S σ) : Prop := ¬ E.Total ∨ ∃ (infos : S → NodeInfo S) (s : S), WalkInv w infos ∧ Created infos s ∧ Overflow w infos s

theorem insertEdges_refines {w : World S} {E : LEnv S σ} (hE : E.Legal w) {bound : Int} (A : OLSpec K (S × Nat) H rel cfg) (s : S) (g rg : Int) (h0 : 0 ≤ g) (p : OSet Nat) :
    ∀ (os : List Nat) (ol : OL (S × Nat)) (env : σ) (l : List (K × (S × Nat))), A.R ol l →
    (∃ ol' env' add, Lazy.insertEdges w E H rel bound s g rg p os ol env = some (ol', env') ∧ A.R ol' (l ++ add) ∧ Edges w E bound A s g rg os add) ∨
    (Lazy.insertEdges w E H rel bound s g rg p os ol env = none ∧ (¬ E.Total ∨ ∃ o ∈ os, g + w.adj o ≥ 2 ^ 29 ∨ rg + w.cost o ≥ 2 ^ 31))
  | [], ol, env, l, hR => Or.inl ⟨ol, env, [], rfl, by simpa using hR, ⟨by simp, by simp⟩⟩
  | o :: os, ol, env, l, hR => by
    unfold Lazy.insertEdges
    rcases plus_cases g (w.adj o) with hpl | ⟨hpl, hbig⟩
    case inr => rw [hpl]; exact Or.inr ⟨rfl, Or.inr ⟨o, by simp, Or.inl (by omega)⟩⟩
    rcases plus_cases rg (w.cost o) with hpr | ⟨hpr, hbig⟩
    case inr => rw [hpl, hpr]; exact Or.inr ⟨rfl, Or.inr ⟨o, by simp, Or.inr hbig⟩⟩
    rw [hpl, hpr]
    simp only
    have lift : ∀ {x : Option (OL (S × Nat) × σ)}, (x = none ∧ (¬ E.Total ∨ ∃ o ∈ os, g + w.adj o ≥ 2 ^ 29 ∨ rg + w.cost o ≥ 2 ^ 31)) →
        (x = none ∧ (¬ E.Total ∨ ∃ o' ∈ o :: os, g + w.adj o' ≥ 2 ^ 29 ∨ rg + w.cost o' ≥ 2 ^ 31)) := by
      rintro x ⟨h1, h2 | ⟨o', h3, h4⟩⟩
      · exact ⟨h1, Or.inl h2⟩
      · exact ⟨h1, Or.inr ⟨o', by simp [h3], h4⟩⟩
    by_cases hb : rg + w.cost o < bound
    · rw [if_pos hb]
      cases he : E.evalEdge env s (g + w.adj o) (p.contains o) with
      | none =>
        right
        refine ⟨rfl, ?_⟩
        by_cases h29 : g + w.adj o < 2 ^ 29
        · left
          intro hT
          obtain ⟨c, env', hc⟩ := hT.edge env s (g + w.adj o) (p.contains o) (by omega) h29
          rw [he] at hc; simp at hc
        · exact Or.inr ⟨o, by simp, Or.inl (by omega)⟩
      | some r =>
        obtain ⟨c, env'⟩ := r
        simp only
        have hev : E.EdgeEvals s (g + w.adj o) c := ⟨_, _, _, he⟩
        obtain ⟨ol', i1, i2⟩ := A.insert _ _ c (s, o) hR (hE.edge _ _ _ hev)
        rw [i1]
        simp only
        rcases insertEdges_refines hE A s g rg h0 p os ol' env' _ i2 with ⟨ol2, env2, add, j1, j2, j3⟩ | h
        · left
          refine ⟨ol2, env2, List.replicate (Spec.copies rel c cfg) (A.key c, (s, o)) ++ add, j1, by rw [← List.append_assoc]; exact j2, ?_, ?_⟩
          · intro x hx
            rcases List.mem_append.mp hx with hx | hx
            · rw [List.eq_of_mem_replicate hx]; exact ⟨rfl, by simp, hb⟩
            · obtain ⟨k1, k2, k3⟩ := j3.mem x hx
              exact ⟨k1, by simp [k2], k3⟩
          · intro o' ho' hb'
            rcases List.mem_cons.mp ho' with rfl | ho'
            · refine ⟨c, hev, ?_⟩
              by_cases hz : Spec.copies rel c cfg = 0
              · exact Or.inl hz
              · exact Or.inr (List.mem_append.mpr (Or.inl (List.mem_replicate.mpr ⟨hz, rfl⟩)))
            · obtain ⟨c', k1, k2⟩ := j3.all o' ho' hb'
              refine ⟨c', k1, ?_⟩
              rcases k2 with k2 | k2
              · exact Or.inl k2
              · exact Or.inr (List.mem_append.mpr (Or.inr k2))
        · exact Or.inr (lift h)
    · rw [if_neg hb]
      rcases insertEdges_refines hE A s g rg h0 p os ol env _ hR with ⟨ol2, env2, add, j1, j2, j3⟩ | h
      · left
        refine ⟨ol2, env2, add, j1, j2, ?_, ?_⟩
        · intro x hx
          obtain ⟨k1, k2, k3⟩ := j3.mem x hx
          exact ⟨k1, by simp [k2], k3⟩
        · intro o' ho' hb'
          rcases List.mem_cons.mp ho' with rfl | ho'
          · exact absurd hb' hb
          · exact j3.all o' ho' hb'
      · exact Or.inr (lift h)

/-- an edge of the state space that starts in a created state -/
def EdgeOK (w : World S) (infos : S → NodeInfo S) (p : S) (o : Nat) : Prop := Created infos p ∧ ∃ ops, w.ops p = some ops ∧ o ∈ ops

/-- what holds between steps, without the current state -/
structure PInv (w : World S) (valid : S → Prop) (infos : S → NodeInfo S) (l : List (K × (S × Nat))) : Prop where
  nodes : NodeInv w valid infos
  walks : WalkInv w infos
  small : ∀ s, (infos s).g < 2 ^ 29
  notOpen : ∀ s, (infos s).status ≠ .opened
  entries : ∀ x ∈ l, EdgeOK w infos x.2.1 x.2.2

/-- what holds of the current state -/
inductive CurOK (w : World S) : (S → NodeInfo S) → List (K × (S × Nat)) → Cur S → Prop where
  | init : CurOK w (fun _ => .fresh) [] ⟨w.init, none, 0, 0⟩
  | edge (infos : S → NodeInfo S) (l : List (K × (S × Nat))) (p : S) (o : Nat) (t : S) : EdgeOK w infos p o → w.succ p o = some t →
      CurOK w infos l ⟨t, some (p, o), (infos p).g + w.adj o, (infos p).realG + w.cost o⟩

/-- the information stored when the current state is expanded -/
def Cur.info (cur : Cur S) : NodeInfo S := ⟨.closed, cur.g, cur.pred.map Prod.fst, cur.pred.map Prod.snd, cur.realG⟩

/-- the current state is new or reopened -/
def Fresh (opts : LOptions) (infos : S → NodeInfo S) (cur : Cur S) : Prop :=
  (infos cur.state).status = .new ∨ opts.reopen = true ∧ (infos cur.state).status = .closed ∧ cur.g < (infos cur.state).g

/-- what happens to the current state, unless it ends the search -/
inductive Proc (w : World S) (E : LEnv S σ) (opts : LOptions) (A : OLSpec K (S × Nat) H rel cfg) (infos : S → NodeInfo S) (l : List (K × (S × Nat))) (cur : Cur S) :
    (S → NodeInfo S) → List (K × (S × Nat)) → Prop where
  | skip : (infos cur.state).status ≠ .new → (opts.reopen = true → (infos cur.state).status = .deadEnd ∨ (infos cur.state).g ≤ cur.g) → Proc w E opts A infos l cur infos l
  | dead (c : Ctx) : Fresh opts infos cur → E.Evals cur.state cur.g c → Spec.DeadEnd rel c cfg →
      Proc w E opts A infos l cur (setStatus infos cur.state .deadEnd) l
  | expand (ops os : List Nat) (add : List (K × (S × Nat))) : Fresh opts infos cur → cur.g < 2 ^ 29 → w.goal cur.state = some false → w.ops cur.state = some ops → (∀ o, o ∈ os ↔ o ∈ ops) →
      Edges w E opts.bound A cur.state cur.g cur.realG os add → Proc w E opts A infos l cur (upd infos cur.state cur.info) (l ++ add)

theorem upd_upd {α : Type} (f : S → α) (s : S) (a b : α) : upd (upd f s a) s b = upd f s b := by
  funext x; unfold upd; split <;> rfl

theorem info_inv {w : World S} {valid : S → Prop} (hv : w.Total valid) {opts : LOptions} {infos : S → NodeInfo S} {l : List (K × (S × Nat))} {cur : Cur S}
    (hi : PInv w valid infos l) (hc : CurOK w infos l cur) (hf : Fresh opts infos cur) :
    0 ≤ cur.g ∧ valid cur.state ∧ NodeInv w valid (upd infos cur.state cur.info) ∧ WalkInv w (upd infos cur.state cur.info) := by
  cases hc with
  | init =>
    refine ⟨le_refl _, hv.init, ?_, ?_⟩
    · have := (NodeInv.openInitial hv).setStatus (s := w.init) (st := .closed) (by simp [Created]) (by simp)
      rw [upd_upd] at this
      simpa [Cur.info] using this
    · have := (WalkInv.openInitial w).setStatus (s := w.init) (st := .closed)
      rw [upd_upd] at this
      simpa [Cur.info] using this
  | edge _ _ p o t he hs =>
    obtain ⟨h1, ops, h2, h3⟩ := he
    have hp0 : 0 ≤ (infos p).g := h1
    obtain ⟨t', k1, k2⟩ := hv.succ p ops o (hi.nodes.ok p h1).1 h2 h3
    rw [hs] at k1; simp only [Option.some.injEq] at k1; subst k1
    have himp : Created infos t → (infos p).g + w.adj o < (infos t).g := by
      intro hct
      rcases hf with hf | ⟨_, _, hf⟩
      · exact absurd hct (hi.nodes.fresh t hf)
      · exact hf
    have hinit : t ≠ w.init ∨ Created infos t := by
      by_cases e : t = w.init
      · right; rw [e]; exact hi.nodes.init_created h1
      · exact Or.inl e
    exact ⟨by simp only; omega, k2, hi.nodes.setParent hv h1 h2 h3 hs rfl hinit himp (Or.inr rfl), hi.walks.setParent h1 h2 h3 hs rfl rfl himp⟩

theorem PInv.deadEnd {w : World S} {valid : S → Prop} {infos : S → NodeInfo S} {l : List (K × (S × Nat))} (hi : PInv w valid infos l) (s : S) :
    PInv w valid (setStatus infos s .deadEnd) l where
  nodes := hi.nodes.setStatus (by simp) (by simp)
  walks := hi.walks.setStatus
  small := small_setStatus hi.small
  notOpen x := by
    unfold setStatus
    by_cases hx : x = s
    · subst hx; simp
    · rw [upd_ne _ _ hx]; exact hi.notOpen x
  entries x hx := by
    obtain ⟨h1, h2⟩ := hi.entries x hx
    exact ⟨by unfold Created; rw [setStatus_g]; exact h1, h2⟩

theorem Proc.inv {w : World S} {valid : S → Prop} (hv : w.Total valid) {E : LEnv S σ} {opts : LOptions} {A : OLSpec K (S × Nat) H rel cfg} {infos infos' : S → NodeInfo S}
    {l l' : List (K × (S × Nat))} {cur : Cur S} (h : Proc w E opts A infos l cur infos' l') (hi : PInv w valid infos l) (hc : CurOK w infos l cur) : PInv w valid infos' l' := by
  cases h with
  | skip h1 h2 => exact hi
  | dead c h1 h2 h3 => exact hi.deadEnd _
  | expand ops os add h1 h2 h3 h4 h5 h6 =>
    obtain ⟨i0, iv, i1, i2⟩ := info_inv hv hi hc h1
    have hcr : Created (upd infos cur.state cur.info) cur.state := by simpa [Created, Cur.info] using i0
    refine ⟨i1, i2, ?_, ?_, ?_⟩
    · intro x
      by_cases hx : x = cur.state
      · rw [hx]; simpa [Cur.info] using h2
      · rw [upd_ne _ _ hx]; exact hi.small x
    · intro x
      by_cases hx : x = cur.state
      · rw [hx]; simp [Cur.info]
      · rw [upd_ne _ _ hx]; exact hi.notOpen x
    · intro x hx
      rcases List.mem_append.mp hx with hx | hx
      · obtain ⟨k1, k2⟩ := hi.entries x hx
        refine ⟨?_, k2⟩
        by_cases hxc : x.2.1 = cur.state
        · rw [hxc]; exact hcr
        · unfold Created; rw [upd_ne _ _ hxc]; exact k1
      · obtain ⟨k1, k2, _⟩ := h6.mem x hx
        rw [k1]
        exact ⟨hcr, ops, h4, (h5 _).mp k2⟩

/-! ### the model refines the abstract transitions -/

/-- the result of the first part of a step -/
inductive ProcResult (w : World S) (E : LEnv S σ) (opts : LOptions) (A : OLSpec K (S × Nat) H rel cfg) (infos : S → NodeInfo S) (l : List (K × (S × Nat))) (cur : Cur S) :
    Option (Res (Lazy S σ)) → Prop where
  | solved (π : List Nat) : Fresh opts infos cur → w.goal cur.state = some true → tracePath (upd infos cur.state cur.info) cur.state = some π →
      ProcResult w E opts A infos l cur (some (.solved π))
  | inProgress (st' : Lazy S σ) (l' : List (K × (S × Nat))) : A.R st'.openList l' → Proc w E opts A infos l cur st'.infos l' → ProcResult w E opts A infos l cur (some (.inProgress st'))
  | problem : LProblem w E → ProcResult w E opts A infos l cur none

theorem openNode_cases {w : World S} {valid : S → Prop} {opts : LOptions} {infos : S → NodeInfo S} {l : List (K × (S × Nat))} {cur : Cur S} (hi : PInv w valid infos l)
    (hc : CurOK w infos l cur) (hf : Fresh opts infos cur) (re : Bool) (hre : re = true ↔ (infos cur.state).status ≠ .new) :
    (Lazy.openNode w infos cur re = some { cur.info with status := .opened } ∧ cur.g < 2 ^ 29) ∨ (Lazy.openNode w infos cur re = none ∧ ∃ s, Created infos s ∧ Overflow w infos s) := by
  cases hc with
  | init => left; exact ⟨rfl, by simp⟩
  | edge _ _ p o t he hs =>
    obtain ⟨h1, ops, h2, h3⟩ := he
    have : Lazy.openNode w infos ⟨t, some (p, o), (infos p).g + w.adj o, (infos p).realG + w.cost o⟩ re = updateParent w infos p o .opened := by
      simp only [Lazy.openNode]
      cases re with
      | false =>
        have : (infos t).status = .new := by
          by_contra hn; exact absurd (hre.mpr hn) (by simp)
        rw [if_neg (by simp)]; unfold openNewNode; rw [if_pos this]
      | true =>
        have hn : (infos t).status ≠ .new := hre.mp rfl
        have : (infos t).status = .closed := by
          rcases hf with hf | ⟨_, hf, _⟩
          · exact absurd hf hn
          · exact hf
        rw [if_pos rfl]; unfold reopenClosedNode; rw [if_pos this]
    rw [this]
    rcases updateParent_cases w infos p o .opened with ⟨hup, h29⟩ | ⟨hup, hbig⟩
    · exact Or.inl ⟨by rw [hup]; rfl, h29⟩
    · exact Or.inr ⟨hup, p, h1, o, ⟨ops, h2, h3⟩, hbig⟩

theorem generateSuccessors_refines {w : World S} {valid : S → Prop} (hv : w.Total valid) {E : LEnv S σ} (hE : E.Legal w) {opts : LOptions} (A : OLSpec K (S × Nat) H rel cfg)
    {st : Lazy S σ} {l : List (K × (S × Nat))} (hR : A.R st.openList l) (hval : valid st.cur.state) (h0 : 0 ≤ st.cur.g) :
    (∃ st' ops os add, Lazy.generateSuccessors w E H rel opts st = some st' ∧ st'.infos = st.infos ∧ A.R st'.openList (l ++ add) ∧ w.ops st.cur.state = some ops ∧ (∀ o, o ∈ os ↔ o ∈ ops) ∧
      Edges w E opts.bound A st.cur.state st.cur.g st.cur.realG os add) ∨
    (Lazy.generateSuccessors w E H rel opts st = none ∧ (¬ E.Total ∨ ∃ ops, w.ops st.cur.state = some ops ∧ ∃ o ∈ ops, st.cur.g + w.adj o ≥ 2 ^ 29 ∨ st.cur.realG + w.cost o ≥ 2 ^ 31)) := by
  obtain ⟨ops, hops⟩ := hv.ops _ hval
  unfold Lazy.generateSuccessors
  rw [hops]
  simp only
  have hm := mem_successorOps hE opts hops st.cur.g st.env
  rcases insertEdges_refines hE (bound := opts.bound) A st.cur.state st.cur.g st.cur.realG h0 (Lazy.preferred E opts st.cur.state st.cur.g st.env).1
    (Lazy.successorOps E opts (Lazy.preferred E opts st.cur.state st.cur.g st.env).1 ops (Lazy.preferred E opts st.cur.state st.cur.g st.env).2).1 st.openList
    (Lazy.successorOps E opts (Lazy.preferred E opts st.cur.state st.cur.g st.env).1 ops (Lazy.preferred E opts st.cur.state st.cur.g st.env).2).2 l hR with ⟨ol', env', add, j1, j2, j3⟩ | ⟨j1, j2⟩
  · left
    exact ⟨{ st with openList := ol', env := env' }, ops, _, add, by rw [j1]; rfl, rfl, j2, rfl, hm, j3⟩
  · right
    refine ⟨by rw [j1]; rfl, ?_⟩
    rcases j2 with j2 | ⟨o, j2, j3⟩
    · exact Or.inl j2
    · exact Or.inr ⟨ops, rfl, o, (hm o).mp j2, j3⟩

theorem evaluate_refines {w : World S} {valid : S → Prop} (hv : w.Total valid) {E : LEnv S σ} (hE : E.Legal w) {opts : LOptions} (A : OLSpec K (S × Nat) H rel cfg)
    {st : Lazy S σ} {l : List (K × (S × Nat))} (hR : A.R st.openList l) (hi : PInv w valid st.infos l) (hc : CurOK w st.infos l st.cur) (hf : Fresh opts st.infos st.cur)
    (re : Bool) (hre : re = true ↔ (st.infos st.cur.state).status ≠ .new) : ProcResult w E opts A st.infos l st.cur (Lazy.evaluate w E H rel opts re st) := by
  obtain ⟨i0, iv, i1, i2⟩ := info_inv hv hi hc hf
  unfold Lazy.evaluate
  generalize Lazy.notify E st = env0
  cases he : E.eval env0 st.cur.state st.cur.g with
  | none =>
    refine .problem ?_
    by_cases h29 : st.cur.g < 2 ^ 29
    · left; intro hT
      obtain ⟨c, env', hc'⟩ := hT.eval env0 st.cur.state st.cur.g i0 h29
      rw [he] at hc'; simp at hc'
    · right
      rcases openNode_cases hi hc hf re hre with ⟨_, h⟩ | ⟨_, s, h1, h2⟩
      · exact absurd h h29
      · exact ⟨_, s, hi.walks, h1, h2⟩
  | some r =>
    obtain ⟨c, env'⟩ := r
    simp only
    have hev : E.Evals st.cur.state st.cur.g c := ⟨_, _, he⟩
    by_cases hd : st.openList.isDeadEnd rel c = true
    · rw [if_pos hd]
      exact .inProgress _ l hR (.dead c hf hev ((A.dead _ _ c hR).mp hd))
    · rw [if_neg hd]
      rcases openNode_cases hi hc hf re hre with ⟨hop, h29⟩ | ⟨hop, s, h1, h2⟩
      case inr => rw [hop]; exact .problem (Or.inr ⟨_, s, hi.walks, h1, h2⟩)
      rw [hop]
      simp only
      unfold Lazy.expand closeNode
      simp only [if_true]
      obtain ⟨b, hb⟩ := hv.goal _ iv
      rw [hb]
      have hcr : Created (upd st.infos st.cur.state st.cur.info) st.cur.state := by simpa [Created, Cur.info] using i0
      have hinfo : { st.cur.info with status := Status.closed } = st.cur.info := rfl
      cases b with
      | true =>
        simp only
        obtain ⟨π, h1, _, _⟩ := i1.trace hcr
        have h1' : tracePath (upd st.infos st.cur.state { status := Status.closed, g := st.cur.info.g, parent := st.cur.info.parent, op := st.cur.info.op, realG := st.cur.info.realG }) st.cur.state = some π := h1
        rw [h1']
        exact .solved π hf hb h1
      | false =>
        simp only
        have hRw : ∀ (st1 : Lazy S σ), A.R st1.openList l → A.R (Lazy.reward E c st1).openList l := by
          intro st1 h1
          unfold Lazy.reward
          simp only
          split <;> split <;> first | exact A.boost _ _ h1 | exact h1
        rcases generateSuccessors_refines hv hE (opts := opts) A
          (st := Lazy.reward E c { st with infos := upd st.infos st.cur.state st.cur.info, env := env' }) (hRw _ hR) iv i0 with ⟨st', ops, os, add, j1, j2, j3, j4, j5, j6⟩ | ⟨j1, j2⟩
        · have j1' : Lazy.generateSuccessors w E H rel opts (Lazy.reward E c { infos := upd st.infos st.cur.state { status := .closed, g := st.cur.info.g, parent := st.cur.info.parent, op := st.cur.info.op, realG := st.cur.info.realG }, openList := st.openList, rng := st.rng, env := env', cur := st.cur }) = some st' := j1
          rw [j1']
          have j2' : st'.infos = upd st.infos st.cur.state st.cur.info := j2
          refine .inProgress st' _ j3 ?_
          rw [j2']
          exact .expand ops os add hf h29 hb j4 j5 j6
        · have j1' : Lazy.generateSuccessors w E H rel opts (Lazy.reward E c { infos := upd st.infos st.cur.state { status := .closed, g := st.cur.info.g, parent := st.cur.info.parent, op := st.cur.info.op, realG := st.cur.info.realG }, openList := st.openList, rng := st.rng, env := env', cur := st.cur }) = none := j1
          rw [j1']
          refine .problem ?_
          rcases j2 with j2 | ⟨ops, k1, o, k2, k3⟩
          · exact Or.inl j2
          · exact Or.inr ⟨_, st.cur.state, i2, hcr, o, ⟨ops, k1, k2⟩, by simpa [Cur.info, Lazy.reward] using k3⟩

theorem curOK_status {w : World S} {valid : S → Prop} {infos : S → NodeInfo S} {l : List (K × (S × Nat))} (hi : PInv w valid infos l) {s : S}
    (h1 : (infos s).status ≠ .new) (h2 : (infos s).status ≠ .deadEnd) : (infos s).status = .closed := by
  have := hi.notOpen s
  cases h : (infos s).status <;> simp_all

theorem process_refines {w : World S} {valid : S → Prop} (hv : w.Total valid) {E : LEnv S σ} (hE : E.Legal w) {opts : LOptions} (A : OLSpec K (S × Nat) H rel cfg)
    {st : Lazy S σ} {l : List (K × (S × Nat))} (hR : A.R st.openList l) (hi : PInv w valid st.infos l) (hc : CurOK w st.infos l st.cur) :
    ProcResult w E opts A st.infos l st.cur (Lazy.process w E H rel opts st) := by
  unfold Lazy.process
  by_cases hn : (st.infos st.cur.state).status = .new
  · rw [if_pos hn]
    exact evaluate_refines hv hE A hR hi hc (Or.inl hn) false (by simp [hn])
  rw [if_neg hn]
  by_cases hr : opts.reopen = true ∧ (st.infos st.cur.state).status ≠ .deadEnd
  · rw [if_pos hr]
    have hcl := curOK_status hi hn hr.2
    rw [getG_created (hi.nodes.live _ (Or.inr hcl))]
    simp only
    by_cases hlt : st.cur.g < (st.infos st.cur.state).g
    · rw [if_pos hlt]
      exact evaluate_refines hv hE A hR hi hc (Or.inr ⟨hr.1, hcl, hlt⟩) true (by simp [hn])
    · rw [if_neg hlt]
      exact .inProgress st l hR (.skip hn (fun _ => Or.inr (by omega)))
  · rw [if_neg hr]
    refine .inProgress st l hR (.skip hn (fun h => Or.inl ?_))
    by_contra hd
    exact hr ⟨h, hd⟩

/-- a completed step; `cur'` is the new current state -/
structure LStep (w : World S) (E : LEnv S σ) (opts : LOptions) (A : OLSpec K (S × Nat) H rel cfg) (infos : S → NodeInfo S) (l : List (K × (S × Nat))) (cur : Cur S)
    (infos' : S → NodeInfo S) (l' : List (K × (S × Nat))) (cur' : Cur S) : Prop where
  ex : ∃ l1 p o, Proc w E opts A infos l cur infos' l1 ∧ A.Pop l1 (p, o) l' ∧ cur'.pred = some (p, o) ∧ CurOK w infos' l' cur'

/-- the result of a step -/
inductive LResult (w : World S) (E : LEnv S σ) (opts : LOptions) (A : OLSpec K (S × Nat) H rel cfg) (infos : S → NodeInfo S) (l : List (K × (S × Nat))) (cur : Cur S) :
    Option (Res (Lazy S σ)) → Prop where
  | failed (infos' : S → NodeInfo S) : Proc w E opts A infos l cur infos' [] → LResult w E opts A infos l cur (some .failed)
  | solved (π : List Nat) : Fresh opts infos cur → w.goal cur.state = some true → tracePath (upd infos cur.state cur.info) cur.state = some π →
      LResult w E opts A infos l cur (some (.solved π))
  | inProgress (st' : Lazy S σ) (l' : List (K × (S × Nat))) : A.R st'.openList l' → LStep w E opts A infos l cur st'.infos l' st'.cur → LResult w E opts A infos l cur (some (.inProgress st'))
  | problem : LProblem w E → LResult w E opts A infos l cur none

theorem lazyStep_refines {w : World S} {valid : S → Prop} (hv : w.Total valid) {E : LEnv S σ} (hE : E.Legal w) {opts : LOptions} (A : OLSpec K (S × Nat) H rel cfg)
    {st : Lazy S σ} {l : List (K × (S × Nat))} (hR : A.R st.openList l) (hi : PInv w valid st.infos l) (hc : CurOK w st.infos l st.cur) :
    LResult w E opts A st.infos l st.cur (Lazy.step w E H rel opts st) := by
  have hp := process_refines hv hE (opts := opts) A hR hi hc
  unfold Lazy.step
  generalize Lazy.process w E H rel opts st = r at hp
  cases hp with
  | solved π h1 h2 h3 => exact .solved π h1 h2 h3
  | problem h => exact .problem h
  | inProgress st1 l1 h1 h2 =>
    simp only
    have hi1 := h2.inv hv hi hc
    unfold Lazy.fetch
    by_cases hl : l1 = []
    · subst hl
      rw [if_pos ((A.empty _ _ h1).mpr rfl)]
      exact .failed _ h2
    · rw [if_neg (fun h => hl ((A.empty _ _ h1).mp h))]
      obtain ⟨e, ol, rng', l2, k1, k2, k3⟩ := A.remove _ _ st1.rng h1 hl
      rw [k1]
      simp only
      obtain ⟨k, hk⟩ := A.popPerm _ _ _ k2
      obtain ⟨p, o⟩ := e
      obtain ⟨hp1, ops, hp2, hp3⟩ := hi1.entries (k, (p, o)) (hk.symm.subset (by simp))
      simp only at hp1 hp2 hp3
      unfold Lazy.edge
      rw [hp2]
      simp only [hp3, if_true]
      obtain ⟨t, ht, _⟩ := hv.succ p ops o (hi1.nodes.ok p hp1).1 hp2 hp3
      rw [ht, getG_created hp1, Option.bind_some]
      rcases plus_cases (st1.infos p).g (w.adj o) with hpl | ⟨hpl, hbig⟩
      case inr => rw [hpl]; exact .problem (Or.inr ⟨_, p, hi1.walks, hp1, o, ⟨ops, hp2, hp3⟩, Or.inl (by omega)⟩)
      rcases plus_cases (st1.infos p).realG (w.cost o) with hpr | ⟨hpr, hbig⟩
      case inr => rw [hpl, hpr]; exact .problem (Or.inr ⟨_, p, hi1.walks, hp1, o, ⟨ops, hp2, hp3⟩, Or.inr hbig⟩)
      rw [hpl, hpr]
      simp only
      exact .inProgress _ l2 k3 ⟨l1, p, o, h2, k2, rfl, .edge _ _ p o t ⟨hp1, ops, hp2, hp3⟩ ht⟩

theorem LStep.inv {w : World S} {valid : S → Prop} (hv : w.Total valid) {E : LEnv S σ} {opts : LOptions} {A : OLSpec K (S × Nat) H rel cfg} {infos infos' : S → NodeInfo S}
    {l l' : List (K × (S × Nat))} {cur cur' : Cur S} (h : LStep w E opts A infos l cur infos' l' cur') (hi : PInv w valid infos l) (hc : CurOK w infos l cur) :
    PInv w valid infos' l' ∧ CurOK w infos' l' cur' := by
  obtain ⟨l1, p, o, h1, h2, h3, h4⟩ := h.ex
  have hi1 := h1.inv hv hi hc
  obtain ⟨k, hk⟩ := A.popPerm _ _ _ h2
  exact ⟨⟨hi1.nodes, hi1.walks, hi1.small, hi1.notOpen, fun x hx => hi1.entries x (hk.symm.subset (by simp [hx]))⟩, h4⟩

/-- the states that a lazy search goes through -/
inductive LReached (w : World S) (E : LEnv S σ) (opts : LOptions) (A : OLSpec K (S × Nat) H rel cfg) : (S → NodeInfo S) → List (K × (S × Nat)) → Cur S → Prop where
  | start : LReached w E opts A (fun _ => .fresh) [] ⟨w.init, none, 0, 0⟩
  | step (infos : S → NodeInfo S) (l : List (K × (S × Nat))) (cur : Cur S) (infos' : S → NodeInfo S) (l' : List (K × (S × Nat))) (cur' : Cur S) : LReached w E opts A infos l cur →
      LStep w E opts A infos l cur infos' l' cur' → LReached w E opts A infos' l' cur'

theorem LReached.inv {w : World S} {valid : S → Prop} (hv : w.Total valid) {E : LEnv S σ} {opts : LOptions} {A : OLSpec K (S × Nat) H rel cfg} {infos : S → NodeInfo S}
    {l : List (K × (S × Nat))} {cur : Cur S} (h : LReached w E opts A infos l cur) : PInv w valid infos l ∧ CurOK w infos l cur := by
  induction h with
  | start =>
    refine ⟨⟨nodeInv_fresh w valid, ?_, ?_, ?_, by simp⟩, .init⟩
    · intro s hs; simp [Created, NodeInfo.fresh] at hs
    · intro s; simp [NodeInfo.fresh]
    · intro s; simp [NodeInfo.fresh]
  | step infos l cur infos' l' cur' _ h ih => exact h.inv hv ih.1 ih.2

theorem lazyRun_reached {w : World S} {valid : S → Prop} (hv : w.Total valid) {E : LEnv S σ} (hE : E.Legal w) {opts : LOptions} (A : OLSpec K (S × Nat) H rel cfg) :
    ∀ (n : Nat) (st : Lazy S σ) (l : List (K × (S × Nat))), A.R st.openList l → LReached w E opts A st.infos l st.cur →
    ∃ infos l' cur, LReached w E opts A infos l' cur ∧
      ((∃ st', runFor (Lazy.step w E H rel opts) n st = some (.inProgress st')) ∨ LResult w E opts A infos l' cur (runFor (Lazy.step w E H rel opts) n st))
  | 0, st, l, hR, hr => ⟨st.infos, l, st.cur, hr, Or.inl ⟨st, rfl⟩⟩
  | n + 1, st, l, hR, hr => by
    have hs := lazyStep_refines hv hE (opts := opts) A hR (hr.inv hv).1 (hr.inv hv).2
    rw [runFor]
    generalize hstep : Lazy.step w E H rel opts st = r at hs
    cases hs with
    | failed infos' h => exact ⟨_, _, _, hr, Or.inr (.failed infos' h)⟩
    | solved π h1 h2 h3 => exact ⟨_, _, _, hr, Or.inr (.solved π h1 h2 h3)⟩
    | problem h => exact ⟨_, _, _, hr, Or.inr (.problem h)⟩
    | inProgress st1 l1 h1 h2 => exact lazyRun_reached hv hE A n st1 l1 h1 (.step _ _ _ _ _ _ hr h2)

theorem lazySearch_reached {w : World S} {valid : S → Prop} (hv : w.Total valid) {E : LEnv S σ} (hE : E.Legal w) {opts : LOptions} (A : OLSpec K (S × Nat) H rel cfg)
    (rng : Rng) (env : σ) (n : Nat) : ∃ infos l cur, LReached w E opts A infos l cur ∧
      ((∃ st', Lazy.search w E H rel opts cfg rng env n = some (.inProgress st')) ∨ LResult w E opts A infos l cur (Lazy.search w E H rel opts cfg rng env n)) :=
  lazyRun_reached hv hE A n _ [] A.create .start

end Verif.Search
