import Verif.Lemmas.RegistryOps

/-
C05: the state registry is a bijection between ids and states, for every history.
C06: successor states follow the planning semantics.
-/
namespace Verif.Registry

open IntPacker IntHashSet SegmentedVector

/-! ### histories of requests -/

/-- Requests of a user; `j` refers to the `j`-th state object obtained so far. -/
inductive Req where
  | init
  /-- successor of state object `j` by operator `k` -/
  | succ (j k : Nat)
  /-- look up the id of state object `j` again -/
  | lookup (j : Nat)
  /-- unpack state object `j` (a new object with unpacked values) -/
  | unpack (j : Nat)

/-- requests refer to existing operators and to objects obtained earlier -/
def Legal (t : Task) : Nat → List Req → Prop
  | _, [] => True
  | n, .init :: q => Legal t (n + 1) q
  | n, .succ j k :: q => j < n ∧ k < t.ops.length ∧ Legal t (n + 1) q
  | n, .lookup j :: q => j < n ∧ Legal t (n + 1) q
  | n, .unpack j :: q => j < n ∧ Legal t (n + 1) q

/-- one request against the code -/
def step (hash : Option (List Bin) → Nat) (t : Task) (r : Reg) (hs : List Handle) : Req → Outcome (Reg × Handle)
  | .init => getInitial hash t r
  | .succ j k => do
    let h ← Outcome.ofOption hs[j]?
    let o ← Outcome.ofOption t.ops[k]?
    getSuccessor hash t r h o
  | .lookup j => do
    let h ← Outcome.ofOption hs[j]?
    let h' ← lookup r h.id
    pure (r, h')
  | .unpack j => do
    let h ← Outcome.ofOption hs[j]?
    let h' ← Outcome.ofOption (unpack t r h)
    pure (r, h')

/-- a history against the code -/
def run (hash : Option (List Bin) → Nat) (t : Task) : Reg → List Handle → List Req → Outcome (Reg × List Handle)
  | r, hs, [] => .ok (r, hs)
  | r, hs, q :: qs => do
    let (r', h) ← step hash t r hs q
    run hash t r' (hs ++ [h]) qs

/-- a history, starting with a new registry -/
def runNew (hash : Option (List Bin) → Nat) (t : Task) (qs : List Req) : Outcome (Reg × List Handle) := do
  let r ← Reg.make t
  run hash t r [] qs

/-! ### specification: a growing list of distinct states -/

/-- One request: `L` is the list of registered states (index = id), `A` the answers so far,
each an id together with the state it denotes. -/
inductive SpecStep (t : Task) : List State → List (Nat × State) → Req → (Nat × State) → List State → Prop where
  | init {L A id L'} (h : Register L t.init id L') : SpecStep t L A .init (id, t.init) L'
  | succ {L A j k i s o s' id L'} (hA : A[j]? = some (i, s)) (ho : t.ops[k]? = some o) (hs : t.SuccRel o s s')
      (h : Register L s' id L') : SpecStep t L A (.succ j k) (id, s') L'
  | lookup {L A j i s} (hA : A[j]? = some (i, s)) : SpecStep t L A (.lookup j) (i, s) L
  | unpack {L A j i s} (hA : A[j]? = some (i, s)) : SpecStep t L A (.unpack j) (i, s) L

inductive SpecRun (t : Task) : List State → List (Nat × State) → List Req → List State → List (Nat × State) → Prop where
  | nil {L A} : SpecRun t L A [] L A
  | cons {L A q a L' qs L'' A''} (h : SpecStep t L A q a L') (hr : SpecRun t L' (A ++ [a]) qs L'' A'') :
      SpecRun t L A (q :: qs) L'' A''

/-- A state object denotes the state: reading any variable gives its value, and so do the
unpacked values. -/
def Denotes (t : Task) (r : Reg) (h : Handle) (s : State) : Prop :=
  (∀ v, v < t.vars.length → readVar r h v = s[v]?) ∧ s.length = t.vars.length ∧
    unpack t r h = some { h with values := some s }

/-! ### proofs -/

/-- relation between code and specification state -/
structure Sim (hash : Option (List Bin) → Nat) (t : Task) (r : Reg) (hs : List Handle) (L : List State)
    (A : List (Nat × State)) : Prop where
  rep : ∃ rows S, RegRep hash t r L rows S
  len : hs.length = A.length
  ok : ∀ (j : Nat) (h : Handle) (a : Nat × State), hs[j]? = some h → A[j]? = some a → h.id = a.1 ∧ HandleOk L h a.2

theorem Sim.extend {hash t r r' hs L L' A h a} (hsim : Sim hash t r hs L A)
    (hrep : ∃ rows S, RegRep hash t r' L' rows S) (hpre : ∀ (i : Nat) (s : State), L[i]? = some s → L'[i]? = some s)
    (hid : h.id = a.1) (hok : HandleOk L' h a.2) : Sim hash t r' (hs ++ [h]) L' (A ++ [a]) := by
  refine ⟨hrep, by simp [hsim.len], ?_⟩
  intro j h' a' hj ha
  have hlt := lt_of_some hj
  have hl := hsim.len
  simp at hlt
  by_cases hjl : j < hs.length
  · rw [List.getElem?_append_left hjl] at hj
    rw [List.getElem?_append_left (by omega)] at ha
    obtain ⟨g1, g2⟩ := hsim.ok j h' a' hj ha
    exact ⟨g1, hpre _ _ g2.mem, g2.vals⟩
  · have hje : j = hs.length := by omega
    rw [List.getElem?_append_right (by omega)] at hj ha
    simp [hje, hl] at hj ha
    subst hj; subst ha
    exact ⟨hid, hok⟩

theorem step_good {hash t} (hwf : t.WF) {r hs L A} (hsim : Sim hash t r hs L A) {q : Req} {qs : List Req}
    (hl : Legal t hs.length (q :: qs)) :
    (step hash t r hs q).Good (fun p => ∃ a L', SpecStep t L A q a L' ∧ Sim hash t p.1 (hs ++ [p.2]) L' (A ++ [a])) := by
  obtain ⟨rows, S, hrep⟩ := hsim.rep
  have hget : ∀ j, j < hs.length → ∃ h a, hs[j]? = some h ∧ A[j]? = some a ∧ h.id = a.1 ∧ HandleOk L h a.2 := by
    intro j hj
    have hjA : j < A.length := by rw [← hsim.len]; exact hj
    have h1 := List.getElem?_eq_getElem hj
    have h2 := List.getElem?_eq_getElem hjA
    obtain ⟨g1, g2⟩ := hsim.ok j _ _ h1 h2
    exact ⟨_, _, h1, h2, g1, g2⟩
  cases q with
  | init =>
    refine Outcome.Good.mono (getInitial_good hwf hrep) ?_
    rintro ⟨r', h⟩ ⟨L', rows', S', hreg, hrep', hok⟩
    exact ⟨(h.id, t.init), L', .init hreg, hsim.extend ⟨rows', S', hrep'⟩ (fun i s => hreg.prefix) rfl hok⟩
  | succ j k =>
    obtain ⟨hj, hk, _⟩ := hl
    obtain ⟨h, a, e1, e2, g1, g2⟩ := hget j hj
    obtain ⟨i, s⟩ := a
    have ho := List.getElem?_eq_getElem hk
    simp only [step]
    rw [e1, ho]
    simp only [Outcome.ofOption, ok_bind]
    refine Outcome.Good.mono (getSuccessor_good hwf hrep g2 (List.mem_of_getElem? ho)) ?_
    rintro ⟨r', h'⟩ ⟨s', L', rows', S', hsucc, hreg, hrep', hok⟩
    exact ⟨(h'.id, s'), L', .succ e2 ho hsucc hreg, hsim.extend ⟨rows', S', hrep'⟩ (fun i s => hreg.prefix) rfl hok⟩
  | lookup j =>
    obtain ⟨hj, _⟩ := hl
    obtain ⟨h, a, e1, e2, g1, g2⟩ := hget j hj
    obtain ⟨i, s⟩ := a
    simp only [step]
    rw [e1]
    simp only [Outcome.ofOption, ok_bind]
    have hlk : lookup r h.id = .ok { id := h.id, values := none } := by
      unfold lookup
      have : h.id < rows.length := by rw [hrep.len]; exact lt_of_some g2.mem
      rw [SAV.get_spec hrep.pool, List.getElem?_eq_getElem this]; rfl
    rw [hlk]
    simp only [ok_bind]
    exact ⟨(i, s), L, .lookup e2, hsim.extend ⟨rows, S, hrep⟩ (fun _ _ h => h) g1 ⟨g2.mem, by intro vs hv; simp at hv⟩⟩
  | unpack j =>
    obtain ⟨hj, _⟩ := hl
    obtain ⟨h, a, e1, e2, g1, g2⟩ := hget j hj
    obtain ⟨i, s⟩ := a
    simp only [step]
    rw [e1]
    simp only [Outcome.ofOption, ok_bind]
    rw [unpack_spec (reads_of hrep g2) (hrep.valid s (List.mem_of_getElem? g2.mem)).1]
    simp only [ok_bind]
    exact ⟨(i, s), L, .unpack e2, hsim.extend ⟨rows, S, hrep⟩ (fun _ _ h => h) g1
      ⟨g2.mem, by intro vs hv; simp at hv; exact hv.symm⟩⟩

theorem run_good {hash t} (hwf : t.WF) : ∀ (qs : List Req) (r : Reg) (hs : List Handle) (L : List State)
    (A : List (Nat × State)), Sim hash t r hs L A → Legal t hs.length qs →
    (run hash t r hs qs).Good (fun p => ∃ L' A', SpecRun t L A qs L' A' ∧ Sim hash t p.1 p.2 L' A') := by
  intro qs
  induction qs with
  | nil => intro r hs L A hsim _; exact ⟨L, A, .nil, hsim⟩
  | cons q qs ih =>
    intro r hs L A hsim hl
    refine Outcome.Good.bind (step_good hwf hsim hl) ?_
    rintro ⟨r', h⟩ ⟨a, L', hstep, hsim'⟩
    simp only at hsim' ⊢
    have hl' : Legal t (hs ++ [h]).length qs := by
      rw [List.length_append, List.length_singleton]
      cases q with
      | init => exact hl
      | succ j k => exact hl.2.2
      | lookup j => exact hl.2
      | unpack j => exact hl.2
    refine Outcome.Good.mono (ih r' _ L' _ hsim' hl') ?_
    rintro p ⟨L'', A'', hr, hs''⟩
    exact ⟨L'', A'', .cons hstep hr, hs''⟩

theorem denotes_of {hash t r L rows S h s} (hrep : RegRep hash t r L rows S) (hh : HandleOk L h s) : Denotes t r h s := by
  have hs := hrep.valid s (List.mem_of_getElem? hh.mem)
  refine ⟨?_, hs.1, unpack_spec (reads_of hrep hh) hs.1⟩
  intro v hv
  have hvs : v < s.length := by rw [hs.1]; exact hv
  rw [readVar_spec (reads_of hrep hh) (List.getElem?_eq_getElem hvs), List.getElem?_eq_getElem hvs]

theorem runNew_good {hash t} (hwf : t.WF) {qs : List Req} (hl : Legal t 0 qs) :
    (runNew hash t qs).Good (fun p => ∃ L A, SpecRun t [] [] qs L A ∧ Sim hash t p.1 p.2 L A) := by
  obtain ⟨r, e, hrep⟩ := make_good (hash := hash) hwf
  unfold runNew
  rw [e, ok_bind]
  exact run_good hwf qs r [] [] [] ⟨⟨_, _, hrep⟩, rfl, by simp⟩ hl

/-- **C05**: for every hash function, well-formed task and history of requests, the registry
either runs into the capacity overflow of the hash set (see C03) or behaves like a list of
states to which a requested state is appended exactly if it is not there yet: ids are
indices into this list (so they are consecutive), the list has no duplicates (so ids and
states determine each other), the size is its length, and at the end every state object
obtained at any time still denotes the state it was registered with. -/
theorem C05_state_registry (hash : Option (List Bin) → Nat) {t : Task} (hwf : t.WF) {qs : List Req} (hl : Legal t 0 qs) :
    runNew hash t qs = .overflow ∨ ∃ r hs L A, runNew hash t qs = .ok (r, hs) ∧ SpecRun t [] [] qs L A ∧
      L.Nodup ∧ r.size = L.length ∧ hs.length = qs.length ∧ A.length = qs.length ∧
      ∀ (j : Nat) (h : Handle) (i : Nat) (s : State), hs[j]? = some h → A[j]? = some (i, s) → h.id = i ∧ L[i]? = some s ∧ Denotes t r h s := by
  have hg := runNew_good (hash := hash) hwf hl
  generalize hq : runNew hash t qs = q at hg
  cases q with
  | ok p =>
    right
    obtain ⟨L, A, hspec, hsim⟩ := hg
    obtain ⟨rows, S, hrep⟩ := hsim.rep
    refine ⟨p.1, p.2, L, A, rfl, hspec, hrep.nodup, ?_, ?_, ?_, ?_⟩
    · show p.1.table.numEntries = _
      rw [hrep.tab.num, hrep.keys.length_eq]; simp [keysUpTo]
    · rw [hsim.len]
      have : ∀ {L A qs L' A'}, SpecRun t L A qs L' A' → A'.length = A.length + qs.length := by
        intro L A qs L' A' h
        induction h with
        | nil => simp
        | cons _ _ ih => rw [ih]; simp; omega
      simpa using this hspec
    · have : ∀ {L A qs L' A'}, SpecRun t L A qs L' A' → A'.length = A.length + qs.length := by
        intro L A qs L' A' h
        induction h with
        | nil => simp
        | cons _ _ ih => rw [ih]; simp; omega
      simpa using this hspec
    · intro j h i s hj ha
      obtain ⟨g1, g2⟩ := hsim.ok j h (i, s) hj ha
      simp only at g1 g2
      exact ⟨g1, by rw [← g1]; exact g2.mem, denotes_of hrep g2⟩
  | abort => exact hg.elim
  | overflow => left; rfl
  | ub => exact hg.elim
  | diverge => exact hg.elim

/-! ### C06 -/

theorem succRel_unique {t : Task} (hwf : t.WF) {o : Operator} {s a b : State} (hs : t.ValidState s)
    (ha : t.SuccRel o s a) (hb : t.SuccRel o s b) : a = b := by
  obtain ⟨m, h1, h2⟩ := ha
  obtain ⟨m', h1', h2'⟩ := hb
  have := effectResult_unique h1 h1'
  subst this
  exact Axioms.stable_unique hwf.ax rfl (fun _ _ => rfl) (by rw [h1.1, hs.1]) h2 h2'

theorem unregistered_spec {t : Task} (hwf : t.WF) {o : Operator} (ho : o ∈ t.ops) {s : State} (hs : t.ValidState s) :
    ∃ s', unregisteredSuccessor t s o = some s' ∧ t.ValidState s' ∧ t.SuccRel o s s' := by
  obtain ⟨s', ev, hs', hsucc⟩ := succ_exists hwf ho hs
  refine ⟨s', ?_, hs', hsucc⟩
  have hfire : ∀ (cs : List Fact), (∀ c ∈ cs, c.var < s.length) →
      cs.foldr (fun (c : Fact) acc => (s[c.var]?).bind fun x => if x ≠ c.val then some false else acc) (some true) =
        some (decide (allHold cs s)) := by
    intro cs
    induction cs with
    | nil => intro _; simp [allHold]
    | cons c cs ih =>
      intro hl
      have hx := List.getElem?_eq_getElem (hl c (by simp))
      rw [List.foldr_cons, ih (fun c' h' => hl c' (by simp [h'])), hx]
      simp only [Option.bind_some]
      by_cases hc : s[c.var]'(hl c (by simp)) = c.val
      · rw [if_neg (by simpa using hc)]
        congr 1
        apply decide_eq_decide.mpr
        constructor
        · intro h f hf
          rcases List.mem_cons.mp hf with g | g
          · subst g; unfold Fact.holds; rw [hx, hc]
          · exact h f g
        · intro h f hf; exact h f (by simp [hf])
      · rw [if_pos hc]
        congr 1
        symm
        apply decide_eq_false
        intro h
        have := h c (by simp)
        unfold Fact.holds at this
        rw [hx] at this
        exact hc (Option.some.inj this)
  unfold unregisteredSuccessor
  have := applyUnpacked_spec s (fun cs => cs.foldr (fun (c : Fact) acc => (s[c.var]?).bind fun x =>
      if x ≠ c.val then some false else acc) (some true)) o.effects s
    (fun e he => hfire e.conds (fun f hf => by rw [hs.1]; exact validFact_lt (hwf.effCond o ho e he f hf)))
    (fun e he => by rw [hs.1]; exact validFact_lt (hwf.effFact o ho e he))
  simp only [Option.bind_eq_bind]
  rw [this]
  simp only [Option.bind_some]
  by_cases hax : t.axioms.length > 0
  · rw [if_pos hax]; exact ev
  · rw [if_neg hax]
    unfold Axioms.evaluate at ev
    rw [if_neg hax] at ev; exact ev

/-- **C06**: after any history, let `h` be a state object denoting `s` and `o` an operator.
The unregistered successor function yields the one state `s'` related to `s` by the planning
semantics, and the registered successor function (unless the hash set overflows) yields a
state object that denotes the same `s'`; `h` still denotes `s` afterwards. -/
theorem C06_successor_semantics (hash : Option (List Bin) → Nat) {t : Task} (hwf : t.WF) {qs : List Req}
    (hl : Legal t 0 qs) {r : Reg} {hs : List Handle} (hrun : runNew hash t qs = .ok (r, hs))
    {h : Handle} (hh : h ∈ hs) {o : Operator} (ho : o ∈ t.ops) :
    ∃ s s', Denotes t r h s ∧ t.SuccRel o s s' ∧ (∀ x, t.SuccRel o s x → x = s') ∧
      unregisteredSuccessor t s o = some s' ∧
      (getSuccessor hash t r h o = .overflow ∨
        ∃ r' h', getSuccessor hash t r h o = .ok (r', h') ∧ Denotes t r' h' s' ∧ Denotes t r' h s) := by
  have hg := runNew_good (hash := hash) hwf hl
  rw [hrun] at hg
  obtain ⟨L, A, _, hsim⟩ := hg
  obtain ⟨rows, S, hrep⟩ := hsim.rep
  obtain ⟨j, hj⟩ := List.mem_iff_getElem?.mp hh
  have hjA : j < A.length := by rw [← hsim.len]; exact lt_of_some hj
  obtain ⟨_, hok⟩ := hsim.ok j h _ hj (List.getElem?_eq_getElem hjA)
  generalize (A[j]).2 = s at hok
  simp only at hrep
  have hvs := hrep.valid s (List.mem_of_getElem? hok.mem)
  obtain ⟨s', e, _, hsucc⟩ := unregistered_spec hwf ho hvs
  refine ⟨s, s', denotes_of hrep hok, hsucc, fun x hx => succRel_unique hwf hvs hx hsucc, e, ?_⟩
  have hgs := getSuccessor_good hwf hrep hok ho
  generalize getSuccessor hash t r h o = q at hgs
  cases q with
  | ok p =>
    right
    obtain ⟨s2, L', rows', S', h1, h2, h3, h4⟩ := hgs
    have : s2 = s' := succRel_unique hwf hvs h1 hsucc
    subst this
    exact ⟨p.1, p.2, rfl, denotes_of h3 h4, denotes_of h3 ⟨h2.prefix hok.mem, hok.vals⟩⟩
  | abort => exact hgs.elim
  | overflow => left; rfl
  | ub => exact hgs.elim
  | diverge => exact hgs.elim

/-! ### non-vacuity -/

/-- one variable `x`, a derived variable `d` (true iff `x = 1`), an operator with two
effects on `x`, the second conditional on the old value of `d` -/
def exTask : Task where
  vars := [⟨3, none, 0⟩, ⟨2, some 0, 0⟩]
  ops := [⟨[], [⟨[], ⟨0, 1⟩⟩, ⟨[⟨1, 1⟩], ⟨0, 2⟩⟩], 1⟩]
  axioms := [⟨[], [⟨[⟨0, 1⟩], ⟨1, 1⟩⟩], 0⟩]
  init := [0, 0]
  goal := [⟨0, 2⟩]

theorem exTask_wf : exTask.WF := by
  have hr : exTask.rules = [⟨[⟨0, 1⟩], ⟨1, 1⟩⟩] := rfl
  refine ⟨⟨?_, ?_, ?_, ?_, ?_, ?_, ?_, ?_, ?_, ?_⟩, ?_, ?_, ?_, ?_, ?_, ?_⟩
  · intro a ha; simp [exTask] at ha; subst ha; simp
  · rw [hr]; simp [Task.layerOf, exTask]
  · rw [hr]; simp [Task.defaultOf, exTask]
  · rw [hr]; simp
  · rw [hr]; simp [Task.ValidFact, exTask]
  · rw [hr]; simp [Task.ValidFact, exTask]
  · simp [exTask]
  · intro v d hv _
    match v with
    | 0 => simp [exTask] at hv; subst hv; simp
    | 1 => simp [exTask] at hv; subst hv; simp
    | n + 2 => simp [exTask] at hv
  · rw [hr]; simp [Task.layerOf, exTask]
  · rw [hr]; simp [Task.layerOf, exTask]
  · simp [exTask]
  · refine ⟨rfl, ?_⟩
    intro v x d hx hd
    match v with
    | 0 => simp [exTask] at hx hd; subst hx; subst hd; simp
    | 1 => simp [exTask] at hx hd; subst hx; subst hd; simp
    | n + 2 => simp [exTask] at hx
  · simp [exTask, Task.ValidFact]
  · simp [exTask, Task.ValidFact]
  · simp [exTask]
  · simp [exTask, Task.ValidFact]

example : Legal exTask 0 [.init, .succ 0 0, .unpack 1, .succ 2 0, .succ 1 0, .lookup 3] := by
  simp [Legal, exTask]

example : unregisteredSuccessor exTask [0, 0] ⟨[], [⟨[], ⟨0, 1⟩⟩, ⟨[⟨1, 1⟩], ⟨0, 2⟩⟩], 1⟩ = some [1, 1] := by decide
example : unregisteredSuccessor exTask [1, 1] ⟨[], [⟨[], ⟨0, 1⟩⟩, ⟨[⟨1, 1⟩], ⟨0, 2⟩⟩], 1⟩ = some [2, 0] := by decide

end Verif.Registry
