import Verif.Lemmas.BuildUnify
import Mathlib.Data.List.Perm.Subperm

/-
Lemmas about the loop of the exploration.
-/
namespace Verif.BuildModel
open Verif.Datalog
variable {P V O : Type} [DecidableEq P] [DecidableEq V] [DecidableEq O]

theorem push_spec {seen : List (GAtom P O)} : ∀ (es queue : List (GAtom P O)), ∃ new, push seen es queue = queue ++ new ∧ new.Nodup ∧ (∀ x ∈ new, x ∈ es ∧ x ∉ seen ++ queue) ∧ ∀ x ∈ es, x ∈ seen ++ (queue ++ new)
  | [], queue => ⟨[], by rw [push, List.append_nil], List.nodup_nil, by simp, by simp⟩
  | a :: es, queue => by
    rw [push]
    split
    · rename_i ha
      obtain ⟨new, h1, h2, h3, h4⟩ := push_spec es queue
      refine ⟨new, h1, h2, fun x hx => ⟨by simp [(h3 x hx).1], (h3 x hx).2⟩, fun x hx => ?_⟩
      rcases List.mem_cons.mp hx with rfl | hx
      · rw [← List.append_assoc]
        exact List.mem_append_left _ ha
      · exact h4 x hx
    · rename_i ha
      obtain ⟨new, h1, h2, h3, h4⟩ := push_spec es (queue ++ [a])
      refine ⟨a :: new, by rw [h1]; simp, ?_, fun x hx => ?_, fun x hx => ?_⟩
      · rw [List.nodup_cons]
        refine ⟨fun h => (h3 a h).2 (by simp), h2⟩
      · rcases List.mem_cons.mp hx with rfl | hx
        · exact ⟨by simp, ha⟩
        · refine ⟨by simp [(h3 x hx).1], fun h => (h3 x hx).2 ?_⟩
          rw [← List.append_assoc]
          exact List.mem_append_left _ h
      · rcases List.mem_cons.mp hx with rfl | hx
        · simp
        · have := h4 x hx
          simpa using this

/-- an atom has been seen for a condition of a rule -/
def Entered (index : List (Index P O)) (i j : Nat) (a : GAtom P O) : Prop := ∃ idx l k, index[i]? = some idx ∧ idx[j]? = some l ∧ (k, a) ∈ l

/-- the invariant; `seen` are the atoms that were popped, `all` also has those of the queue -/
structure Inv (facts : List (GAtom P O)) (rules : List (Datalog.Rule P V O)) (seen all : List (GAtom P O)) (index : List (Index P O)) : Prop where
  length : index.length = rules.length
  ok : ∀ (i : Nat) (r : Datalog.Rule P V O) (idx : Index P O), rules[i]? = some r → index[i]? = some idx → IdxOK r idx
  known : ∀ i j a, Entered index i j a → a ∈ seen
  closed : ∀ (i : Nat) (r : Datalog.Rule P V O) (σ : V → O), rules[i]? = some r →
    (∀ (j : Nat) (c : SymAtom P V O), r.conditions[j]? = some c → ∃ τ : V → O, (∀ v ∈ c.vars, v ∈ r.effect.vars → τ v = σ v) ∧ Entered index i j (c.inst τ)) → r.effect.inst σ ∈ all
  sound : ∀ a ∈ all, FollowsLoosely facts rules a
  sub : ∀ a ∈ seen, a ∈ all

/-- conditions with different indexes that are equal can have the same values -/
theorem follows_of_indexed {facts : List (GAtom P O)} {rules : List (Datalog.Rule P V O)} {r : Datalog.Rule P V O} (hr : r ∈ rules) {σ : V → O}
    (h : ∀ (j : Nat) (c : SymAtom P V O), r.conditions[j]? = some c → ∃ τ : V → O, (∀ v ∈ c.vars, v ∈ r.effect.vars → τ v = σ v) ∧ FollowsLoosely facts rules (c.inst τ)) : FollowsLoosely facts rules (r.effect.inst σ) := by
  classical
  have h' : ∀ c : SymAtom P V O, ∃ τ : V → O, c ∈ r.conditions → (∀ v ∈ c.vars, v ∈ r.effect.vars → τ v = σ v) ∧ FollowsLoosely facts rules (c.inst τ) := by
    intro c
    by_cases hc : c ∈ r.conditions
    · obtain ⟨j, hj⟩ := List.mem_iff_getElem?.mp hc
      obtain ⟨τ, hτ⟩ := h j c hj
      exact ⟨τ, fun _ => hτ⟩
    · exact ⟨σ, fun h => absurd h hc⟩
  choose τ hτ using h'
  exact .rule r hr σ τ (fun c hc => (hτ c hc).1) (fun c hc => (hτ c hc).2)

theorem handle_step {facts : List (GAtom P O)} {rules : List (Datalog.Rule P V O)} (hn : ∀ r ∈ rules, r.Normal) {seen queue : List (GAtom P O)} {index : List (Index P O)} (hinv : Inv facts rules seen (seen ++ queue) index) {a : GAtom P O} (ha : a ∈ seen)
    {i j : Nat} {r : Datalog.Rule P V O} {c : SymAtom P V O} (hi : rules[i]? = some r) (hj : r.conditions[j]? = some c) {τ : V → O} (hτ : c.inst τ = a) :
    ∃ idx idx' es, index[i]? = some idx ∧ updateIndex (convert r) idx j a = some idx' ∧ fire (convert r) idx' j a = some es ∧ Inv facts rules seen (seen ++ push seen es queue) (index.set i idx') ∧
      Entered (index.set i idx') i j a ∧ ∀ i' j' b, Entered index i' j' b → Entered (index.set i idx') i' j' b := by
  have hr : r ∈ rules := List.mem_of_getElem? hi
  have hlt : i < index.length := by
    rw [hinv.length]
    exact (List.getElem?_eq_some_iff.mp hi).1
  obtain ⟨idx, hidx⟩ : ∃ idx, index[i]? = some idx := ⟨_, List.getElem?_eq_getElem hlt⟩
  have hok := hinv.ok i r idx hi hidx
  obtain ⟨k, hk⟩ := ruleKey_defined (hn r hr) hj τ
  rw [hτ] at hk
  have hjl : j < idx.length := by
    rw [hok.length]
    exact (List.getElem?_eq_some_iff.mp hj).1
  let idx' := idx.modify j (fun l => l ++ [(k, a)])
  have hget : ∀ (j' : Nat) (l' : List (List O × GAtom P O)), idx'[j']? = some l' ↔ (∃ l, idx[j']? = some l ∧ l' = if j = j' then l ++ [(k, a)] else l) := by
    intro j' l'
    simp only [idx']
    rw [List.getElem?_modify]
    constructor
    · intro h
      obtain ⟨l, hl, he⟩ := Option.map_eq_some_iff.mp h
      exact ⟨l, hl, he.symm⟩
    · rintro ⟨l, hl, rfl⟩
      rw [hl]
      rfl
  have hidx' : (index.set i idx')[i]? = some idx' := by
    rw [List.getElem?_set]
    simp [hlt]
  have hother : ∀ i', i' ≠ i → (index.set i idx')[i']? = index[i']? := by
    intro i' hne
    rw [List.getElem?_set_ne (Ne.symm hne)]
  have hmono : ∀ i' j' b, Entered index i' j' b → Entered (index.set i idx') i' j' b := by
    rintro i' j' b ⟨x, l, k', h1, h2, h3⟩
    by_cases hii : i' = i
    · subst hii
      rw [hidx, Option.some.injEq] at h1
      subst h1
      refine ⟨idx', _, k', hidx', (hget j' _).mpr ⟨l, h2, rfl⟩, ?_⟩
      split
      · exact List.mem_append_left _ h3
      · exact h3
    · exact ⟨x, l, k', by rw [hother i' hii]; exact h1, h2, h3⟩
  have hconv : ∀ i' j' b, Entered (index.set i idx') i' j' b → Entered index i' j' b ∨ (i' = i ∧ j' = j ∧ b = a) := by
    rintro i' j' b ⟨x, l, k', h1, h2, h3⟩
    by_cases hii : i' = i
    · subst hii
      rw [hidx', Option.some.injEq] at h1
      subst h1
      obtain ⟨l0, h4, h5⟩ := (hget j' l).mp h2
      subst h5
      split at h3
      · rename_i hjj
        rcases List.mem_append.mp h3 with h | h
        · exact .inl ⟨idx, l0, k', hidx, h4, h⟩
        · rw [List.mem_singleton, Prod.mk.injEq] at h
          exact .inr ⟨rfl, hjj.symm, h.2⟩
      · exact .inl ⟨idx, l0, k', hidx, h4, h3⟩
    · rw [hother i' hii] at h1
      exact .inl ⟨x, l, k', h1, h2, h3⟩
  have hok' : IdxOK r idx' := by
    refine ⟨by simp only [idx']; rw [List.length_modify]; exact hok.length, ?_⟩
    intro j' c' l' hc' hl' x hx
    obtain ⟨l, hl, rfl⟩ := (hget j' l').mp hl'
    split at hx
    · rename_i hjj
      subst hjj
      rcases List.mem_append.mp hx with h | h
      · exact hok.entries j c' l hc' hl x h
      · rw [List.mem_singleton] at h
        subst h
        rw [hj, Option.some.injEq] at hc'
        subst hc'
        exact ⟨⟨τ, hτ⟩, hk⟩
    · exact hok.entries j' c' l hc' hl x hx
  obtain ⟨es, hes, hmem⟩ := fire_spec (hn r hr) hok' hj τ (by
    intro l' hl'
    obtain ⟨l, hl, rfl⟩ := (hget j l').mp hl'
    simp)
  rw [hτ] at hes hmem
  have hent : Entered (index.set i idx') i j a := by
    obtain ⟨l, hl⟩ : ∃ l, idx[j]? = some l := ⟨_, List.getElem?_eq_getElem hjl⟩
    exact ⟨idx', _, k, hidx', (hget j _).mpr ⟨l, hl, rfl⟩, by simp⟩
  obtain ⟨new, hp1, hp2, hp3, hp4⟩ := push_spec (seen := seen) es queue
  have hknown : ∀ i' j' b, Entered (index.set i idx') i' j' b → b ∈ seen := by
    intro i' j' b h
    rcases hconv i' j' b h with h | ⟨_, _, rfl⟩
    · exact hinv.known i' j' b h
    · exact ha
  refine ⟨idx, idx', es, hidx, by unfold updateIndex; rw [hk]; rfl, hes, ⟨by rw [List.length_set]; exact hinv.length, ?_, hknown, ?_, ?_, ?_⟩, hent, hmono⟩
  · intro i' r' x hr' hx
    by_cases hii : i' = i
    · subst hii
      rw [hidx', Option.some.injEq] at hx
      rw [hi, Option.some.injEq] at hr'
      subst hx hr'
      exact hok'
    · rw [hother i' hii] at hx
      exact hinv.ok i' r' x hr' hx
  · intro i' r' σ hr' hs
    rw [hp1]
    have hold : (∀ (j' : Nat) (c' : SymAtom P V O), r'.conditions[j']? = some c' → ∃ τ : V → O, (∀ v ∈ c'.vars, v ∈ r'.effect.vars → τ v = σ v) ∧ Entered index i' j' (c'.inst τ)) → r'.effect.inst σ ∈ seen ++ (queue ++ new) := by
      intro h
      have := hinv.closed i' r' σ hr' h
      rw [← List.append_assoc]
      exact List.mem_append_left _ this
    by_cases hii : i' = i
    · subst hii
      rw [hi, Option.some.injEq] at hr'
      subst hr'
      obtain ⟨τ1, h1, h2⟩ := hs j c hj
      rcases hconv _ _ _ h2 with h3 | ⟨_, _, h3⟩
      · refine hold fun j' c' hc' => ?_
        by_cases hjj : j' = j
        · subst hjj
          rw [hj, Option.some.injEq] at hc'
          subst hc'
          exact ⟨τ1, h1, h3⟩
        · obtain ⟨τ2, h4, h5⟩ := hs j' c' hc'
          rcases hconv _ _ _ h5 with h6 | ⟨_, h6, _⟩
          · exact ⟨τ2, h4, h6⟩
          · exact absurd h6 hjj
      · refine hp4 _ ((hmem _).mpr ⟨σ, fun j' c' hc' => ?_, rfl⟩)
        by_cases hjj : j' = j
        · subst hjj
          rw [hj, Option.some.injEq] at hc'
          subst hc'
          exact ⟨τ1, h1, .inl ⟨rfl, h3⟩⟩
        · obtain ⟨τ2, h4, x, l, k', h5, h6, h7⟩ := hs j' c' hc'
          rw [hidx', Option.some.injEq] at h5
          subst h5
          exact ⟨τ2, h4, .inr ⟨hjj, l, k', h6, h7⟩⟩
    · refine hold fun j' c' hc' => ?_
      obtain ⟨τ2, h4, h5⟩ := hs j' c' hc'
      rcases hconv _ _ _ h5 with h6 | ⟨h6, _, _⟩
      · exact ⟨τ2, h4, h6⟩
      · exact absurd h6 hii
  · intro b hb
    rw [hp1, ← List.append_assoc] at hb
    rcases List.mem_append.mp hb with hb | hb
    · exact hinv.sound b hb
    · obtain ⟨σ, hσ, rfl⟩ := (hmem b).mp (hp3 b hb).1
      refine follows_of_indexed hr fun j' c' hc' => ?_
      obtain ⟨τ', h1, h2⟩ := hσ j' c' hc'
      refine ⟨τ', h1, hinv.sound _ (List.mem_append_left _ ?_)⟩
      rcases h2 with ⟨_, h2⟩ | ⟨_, l, k', h2, h3⟩
      · rw [h2]
        exact ha
      · exact hknown i j' _ ⟨idx', l, k', hidx', h2, h3⟩
  · intro b hb
    exact List.mem_append_left _ hb

theorem handle_spec {facts : List (GAtom P O)} {rules : List (Datalog.Rule P V O)} (hn : ∀ r ∈ rules, r.Normal) {seen : List (GAtom P O)} {a : GAtom P O} (ha : a ∈ seen) :
    ∀ (ms : List (Nat × Nat)) {queue : List (GAtom P O)} {index : List (Index P O)}, Inv facts rules seen (seen ++ queue) index →
    (∀ (i j : Nat), (i, j) ∈ ms → ∃ r c, rules[i]? = some r ∧ r.conditions[j]? = some c ∧ ∃ τ : V → O, c.inst τ = a) →
    ∃ index' new, handle (rules.map convert) seen a ms index queue = some (index', queue ++ new) ∧ Inv facts rules seen (seen ++ (queue ++ new)) index' ∧ new.Nodup ∧ (∀ x ∈ new, x ∉ seen ++ queue) ∧
      (∀ (i j : Nat), (i, j) ∈ ms → Entered index' i j a) ∧ ∀ i j b, Entered index i j b → Entered index' i j b
  | [], queue, index, hinv, _ => ⟨index, [], by rw [handle, List.append_nil], by simpa using hinv, List.nodup_nil, by simp, by simp, fun _ _ _ h => h⟩
  | (i, j) :: ms, queue, index, hinv, hms => by
    obtain ⟨r, c, hi, hj, τ, hτ⟩ := hms i j (by simp)
    obtain ⟨idx, idx', es, h1, h2, h3, h4, h5, h6⟩ := handle_step hn hinv ha hi hj hτ
    obtain ⟨new1, hp1, hp2, hp3, _⟩ := push_spec (seen := seen) es queue
    rw [hp1] at h4
    obtain ⟨index', new, h7, h8, h9, h10, h11, h12⟩ := handle_spec hn ha ms h4 (fun i' j' h => hms i' j' (by simp [h]))
    refine ⟨index', new1 ++ new, ?_, ?_, ?_, ?_, ?_, fun i' j' b h => h12 _ _ _ (h6 _ _ _ h)⟩
    · rw [handle, List.getElem?_map, hi]
      simp only [Option.map_some, h1, h2, h3]
      rw [hp1, h7, List.append_assoc]
    · rw [← List.append_assoc queue]
      exact h8
    · rw [List.nodup_append]
      refine ⟨hp2, h9, fun x hx y hy hxy => h10 y hy ?_⟩
      rw [← hxy]
      simp [hx]
    · intro x hx hmem
      rcases List.mem_append.mp hx with hx | hx
      · exact (hp3 x hx).2 hmem
      · refine h10 x hx ?_
        rw [← List.append_assoc]
        exact List.mem_append_left _ hmem
    · intro i' j' h
      rcases List.mem_cons.mp h with h | h
      · rw [Prod.mk.injEq] at h
        obtain ⟨rfl, rfl⟩ := h
        exact h12 _ _ _ h5
      · exact h11 i' j' h

theorem follows_arity {ar : P → Nat} {facts : List (GAtom P O)} {rules : List (Datalog.Rule P V O)} (har : Arity ar facts rules) {a : GAtom P O} (h : FollowsLoosely facts rules a) : a.args.length = ar a.pred := by
  cases h with
  | fact a ha => exact har.1 a ha
  | rule r hr σ τ _ _ =>
    simp only [SymAtom.inst, List.length_map]
    exact (har.2 r hr).1

/-- only finitely many atoms follow -/
theorem follows_finite {ar : P → Nat} {facts : List (GAtom P O)} {rules : List (Datalog.Rule P V O)} (har : Arity ar facts rules) (hb : ∀ r ∈ rules, ∀ v ∈ r.effect.vars, ∃ c ∈ r.conditions, v ∈ c.vars) :
    ∃ U : List (GAtom P O), ∀ a, FollowsLoosely facts rules a → a ∈ U := by
  let objs : List O := facts.flatMap (·.args) ++ rules.flatMap (fun r => r.effect.args.filterMap (fun t => match t with | .const o => some o | .var _ => none))
  let preds : List P := facts.map (·.pred) ++ rules.map (·.effect.pred)
  have hall : ∀ a, FollowsLoosely facts rules a → a.pred ∈ preds ∧ ∀ o ∈ a.args, o ∈ objs := by
    intro a h
    induction h with
    | fact a ha => exact ⟨List.mem_append_left _ (List.mem_map_of_mem ha), fun o ho => List.mem_append_left _ (List.mem_flatMap.mpr ⟨a, ha, ho⟩)⟩
    | rule r hr σ τ hτ hc ih =>
      refine ⟨List.mem_append_right _ (List.mem_map.mpr ⟨r, hr, rfl⟩), fun o ho => ?_⟩
      obtain ⟨t, ht, rfl⟩ := List.mem_map.mp ho
      cases t with
      | const o => exact List.mem_append_right _ (List.mem_flatMap.mpr ⟨r, hr, List.mem_filterMap.mpr ⟨_, ht, rfl⟩⟩)
      | var v =>
        have hv : v ∈ r.effect.vars := mem_vars.mpr ht
        obtain ⟨c, hc', hvc⟩ := hb r hr v hv
        refine (ih c hc').2 _ ?_
        simp only [Term.value]
        rw [← hτ c hc' v hvc hv]
        exact List.mem_map.mpr ⟨.var v, mem_vars.mp hvc, rfl⟩
  refine ⟨preds.flatMap (fun p => (product (List.replicate (ar p) objs)).map (fun args => ⟨p, args⟩)), fun a h => ?_⟩
  obtain ⟨h1, h2⟩ := hall a h
  refine List.mem_flatMap.mpr ⟨a.pred, h1, List.mem_map.mpr ⟨a.args, mem_product.mpr ?_, rfl⟩⟩
  rw [← follows_arity har h]
  generalize a.args = l at h2
  induction l with
  | nil => exact .nil
  | cons x l ih =>
    rw [List.length_cons, List.replicate_succ]
    exact .cons (h2 x (by simp)) (ih fun o ho => h2 o (by simp [ho]))

/-- what holds before an iteration -/
structure State (facts : List (GAtom P O)) (rules : List (Datalog.Rule P V O)) (seen queue : List (GAtom P O)) (index : List (Index P O)) : Prop where
  inv : Inv facts rules seen (seen ++ queue) index
  entered : ∀ a ∈ seen, ∀ (i j : Nat) r c, rules[i]? = some r → r.conditions[j]? = some c → (∃ τ : V → O, c.inst τ = a) → Entered index i j a
  news : ∃ new, seen ++ queue = facts ++ new ∧ new.Nodup ∧ ∀ a ∈ new, a ∉ facts

theorem state_start {facts : List (GAtom P O)} {rules : List (Datalog.Rule P V O)} (hn : ∀ r ∈ rules, r.Normal) : State facts rules [] facts ((rules.map convert).map (fun r => r.conditions.map (fun _ => []))) := by
  have hget : ∀ (i : Nat) (idx : Index P O), ((rules.map convert).map (fun r => r.conditions.map (fun _ => ([] : List (List O × GAtom P O)))))[i]? = some idx → ∃ r, rules[i]? = some r ∧ idx = r.conditions.map (fun _ => []) := by
    intro i idx h
    rw [List.getElem?_map, List.getElem?_map] at h
    obtain ⟨x, hx, rfl⟩ := Option.map_eq_some_iff.mp h
    obtain ⟨r, hr, rfl⟩ := Option.map_eq_some_iff.mp hx
    exact ⟨r, hr, by rw [convert_conditions, List.map_map]; rfl⟩
  have hno : ∀ i j a, ¬ Entered ((rules.map convert).map (fun r => r.conditions.map (fun _ => ([] : List (List O × GAtom P O))))) i j a := by
    rintro i j a ⟨idx, l, k, h1, h2, h3⟩
    obtain ⟨r, _, rfl⟩ := hget i idx h1
    rw [List.getElem?_map] at h2
    obtain ⟨_, _, rfl⟩ := Option.map_eq_some_iff.mp h2
    simp at h3
  refine ⟨⟨by simp, ?_, fun i j a h => absurd h (hno i j a), ?_, fun a ha => .fact a ha, by simp⟩, by simp, ⟨[], by simp, List.nodup_nil, by simp⟩⟩
  · intro i r idx hr hidx
    obtain ⟨r', hr', rfl⟩ := hget i idx hidx
    rw [hr, Option.some.injEq] at hr'
    subst hr'
    refine ⟨by simp, ?_⟩
    intro j c l _ hl x hx
    rw [List.getElem?_map] at hl
    obtain ⟨_, _, rfl⟩ := Option.map_eq_some_iff.mp hl
    simp at hx
  · intro i r σ hr h
    have hne : ∃ c, r.conditions[0]? = some c := by
      have hn' := hn r (List.mem_of_getElem? hr)
      cases ht : r.type with
      | join => obtain ⟨c, d, h, _⟩ := hn'.join ht; exact ⟨c, by rw [h]; rfl⟩
      | product =>
        have := (hn'.product ht).1
        exact ⟨_, List.getElem?_eq_getElem (by omega)⟩
      | project => obtain ⟨c, h⟩ := hn'.project ht; exact ⟨c, by rw [h]; rfl⟩
    obtain ⟨c, hc⟩ := hne
    obtain ⟨τ, _, h2⟩ := h 0 c hc
    exact absurd h2 (hno _ _ _)

theorem loop_spec [Nonempty O] {ar : P → Nat} {facts : List (GAtom P O)} {rules : List (Datalog.Rule P V O)} (har : Arity ar facts rules) (hn : ∀ r ∈ rules, r.Normal) {U : List (GAtom P O)} (hU : ∀ a, FollowsLoosely facts rules a → a ∈ U) :
    ∀ (n : Nat) {seen queue : List (GAtom P O)} {index : List (Index P O)}, State facts rules seen queue index → facts.length + U.length ≤ n + seen.length →
    ∃ out index', loop (rules.map convert) n seen queue index = .ok out ∧ State facts rules out [] index'
  | n, seen, [], index, hs, _ => ⟨seen, index, by cases n <;> rw [loop], hs⟩
  | 0, seen, a :: queue, index, hs, hlen => by
    obtain ⟨new, h1, h2, h3⟩ := hs.news
    have hsub : new.length ≤ U.length := (List.subperm_of_subset h2 fun x hx => hU x (hs.inv.sound x (by rw [h1]; exact List.mem_append_right _ hx))).length_le
    have := congrArg List.length h1
    simp only [List.length_append, List.length_cons] at this
    omega
  | n + 1, seen, a :: queue, index, hs, hlen => by
    have hsnd := hs.inv.sound a (by simp)
    obtain ⟨ms, h1, h2⟩ := unify_spec har hn (follows_arity har hsnd)
    have heq : seen ++ a :: queue = (seen ++ [a]) ++ queue := by simp
    have hinv : Inv facts rules (seen ++ [a]) ((seen ++ [a]) ++ queue) index := by
      have := hs.inv
      rw [heq] at this
      exact ⟨this.length, this.ok, fun i j b h => List.mem_append_left _ (this.known i j b h), this.closed, this.sound, fun b hb => List.mem_append_left _ hb⟩
    obtain ⟨index', new, h3, h4, h5, h6, h7, h8⟩ := handle_spec hn (a := a) (by simp) ms hinv (fun i j h => (h2 i j).mp h)
    have hs' : State facts rules (seen ++ [a]) (queue ++ new) index' := by
      refine ⟨h4, fun b hb i j r c hr hc hτ => ?_, ?_⟩
      · rcases List.mem_append.mp hb with hb | hb
        · exact h8 _ _ _ (hs.entered b hb i j r c hr hc hτ)
        · rw [List.mem_singleton] at hb
          subst hb
          exact h7 i j ((h2 i j).mpr ⟨r, c, hr, hc, hτ⟩)
      · obtain ⟨new0, h9, h10, h11⟩ := hs.news
        refine ⟨new0 ++ new, by rw [← List.append_assoc, ← heq, h9, List.append_assoc], ?_, ?_⟩
        · rw [List.nodup_append]
          refine ⟨h10, h5, fun x hx y hy hxy => h6 y hy ?_⟩
          rw [← heq, h9, ← hxy]
          exact List.mem_append_right _ hx
        · intro x hx hf
          rcases List.mem_append.mp hx with hx | hx
          · exact h11 x hx hf
          · refine h6 x hx ?_
            rw [← heq, h9]
            exact List.mem_append_left _ hf
    obtain ⟨out, index'', h9, h10⟩ := loop_spec har hn hU n hs' (by simp only [List.length_append, List.length_cons, List.length_nil]; omega)
    refine ⟨out, index'', ?_, h10⟩
    rw [loop, h1]
    simp only [h3]
    exact h9

theorem loop_mono {rules : List (CRule P V O)} {out : List (GAtom P O)} : ∀ (n : Nat) {seen queue : List (GAtom P O)} {index : List (Index P O)}, loop rules n seen queue index = .ok out → ∀ m, n ≤ m → loop rules m seen queue index = .ok out
  | n, seen, [], index, h, m, _ => by
    have h1 : loop rules n seen [] index = .ok seen := by cases n <;> rw [loop]
    rw [h1] at h
    rw [← h]
    cases m <;> rw [loop]
  | 0, seen, a :: queue, index, h, m, _ => by
    rw [loop] at h
    cases h
  | n + 1, seen, a :: queue, index, h, m, hm => by
    obtain ⟨m', rfl⟩ : ∃ m', m = m' + 1 := ⟨m - 1, by omega⟩
    rw [loop] at h ⊢
    cases h1 : unify rules a with
    | none => rw [h1] at h; cases h
    | some ms =>
      rw [h1] at h
      simp only at h ⊢
      cases h2 : handle rules (seen ++ [a]) a ms index queue with
      | none => rw [h2] at h; cases h
      | some s =>
        rw [h2] at h
        simp only at h ⊢
        exact loop_mono n h m' (by omega)

/-- at the end, everything that follows was seen -/
theorem state_complete {facts : List (GAtom P O)} {rules : List (Datalog.Rule P V O)} {out : List (GAtom P O)} {index : List (Index P O)} (hs : State facts rules out [] index) {a : GAtom P O} (h : FollowsLoosely facts rules a) : a ∈ out := by
  induction h with
  | fact a ha =>
    obtain ⟨new, h1, _⟩ := hs.news
    rw [List.append_nil] at h1
    rw [h1]
    exact List.mem_append_left _ ha
  | rule r hr σ τ hτ _ ih =>
    obtain ⟨i, hi⟩ := List.mem_iff_getElem?.mp hr
    have := hs.inv.closed i r σ hi fun j c hc => ⟨τ c, hτ c (List.mem_of_getElem? hc), hs.entered _ (ih c (List.mem_of_getElem? hc)) i j r c hi hc ⟨τ c, rfl⟩⟩
    simpa using this

end Verif.BuildModel
