import Verif.Model.PerState
import Verif.Spec.PerState
import Verif.Lemmas.SegmentedVector

namespace Verif.PerState

open SegmentedVector

variable {V E W : Type}

/-- What is needed of an entry vector: it represents a list. `ok` is the set of legal
assignments, `app` their effect. -/
structure Laws (vec : Vec V E W) (d : E) (ok : W → Prop) (app : E → W → E) where
  Rep : V → List E → Prop
  empty : Rep vec.empty []
  size : ∀ {v l}, Rep v l → vec.size v = l.length
  resize : ∀ {v l} (n : Nat), Rep v l → l.length ≤ n → ∃ v', vec.resize v n = some v' ∧ Rep v' (l ++ List.replicate (n - l.length) d)
  get : ∀ {v l}, Rep v l → ∀ i : Nat, vec.get v i = l[i]?
  put : ∀ {v l}, Rep v l → ∀ (i : Nat) (e : E) (w : W), l[i]? = some e → ok w → ∃ v', vec.put v i w = some v' ∧ Rep v' (l.set i (app e w))

def svLaws {α : Type} (sz : Nat) (d : α) : Laws (svVec sz d) d (fun _ => True) (fun _ x => x) where
  Rep := fun v l => v.Rep l
  empty := SV.empty_rep sz
  size := fun h => h.size
  resize := by
    intro v l n h hn
    obtain ⟨v', e, h'⟩ := SV.resize_spec h n d
    refine ⟨v', e, ?_⟩
    rwa [List.take_of_length_le hn] at h'
  get := fun h i => SV.get_spec h i
  put := by
    intro v l h i e w he _
    exact SV.set_spec h (List.getElem?_eq_some_iff.mp he).1 w

def savLaws {α : Type} (sz : Nat) (d : List α) :
    Laws (savVec sz d) d (fun w => w.1 < d.length) (fun e w => e.set w.1 w.2) where
  Rep := fun v l => v.Rep l ∧ v.perArray = d.length
  empty := ⟨SAV.empty_rep sz d.length, rfl⟩
  size := fun h => h.1.size
  resize := by
    intro v l n h hn
    obtain ⟨v', e, h', hp⟩ := SAV.resize_spec h.1 n (x := d) (by rw [h.2])
    refine ⟨v', e, ?_, by rw [hp, h.2]⟩
    rwa [List.take_of_length_le hn] at h'
  get := fun h i => SAV.get_spec h.1 i
  put := by
    intro v l h i e w he hw
    obtain ⟨v', e', h', hp⟩ := SAV.set_spec h.1 he (by rw [h.2]; exact hw) w.2
    exact ⟨v', e', h', by rw [hp, h.2]⟩

section
variable {vec : Vec V E W} {d : E} {ok : W → Prop} {app : E → W → E} (L : Laws vec d ok app)

structure Entry (w : World V) (s : Nat → Option (SReg E)) (a ptr : Nat) : Prop where
  lt : ptr < w.next
  ex : ∃ r sr v l, w.regs a = some r ∧ r.subscribed = true ∧ s a = some sr ∧ w.heap ptr = some v ∧ L.Rep v l ∧
    l.length = sr.mat ∧ ∀ i, i < sr.mat → l[i]? = some (sr.val i)

structure Inv (w : World V) (p : Psi) (s : Nat → Option (SReg E)) : Prop where
  dom : ∀ a, (w.regs a).map RegInfo.size = (s a).map SReg.size
  mat : ∀ a sr, s a = some sr → sr.mat ≤ sr.size
  dflt : ∀ a sr, s a = some sr → ∀ i, sr.mat ≤ i → sr.val i = d
  serv : ∀ a, p.services a = true ↔ ∃ r, w.regs a = some r ∧ r.subscribed = true
  has : ∀ a ptr, p.map a = some ptr → Entry L w s a ptr
  hasnt : ∀ a, p.map a = none → (∀ r, w.regs a = some r → r.subscribed = false) ∧ ∀ sr, s a = some sr → sr.mat = 0
  inj : ∀ a b ptr, p.map a = some ptr → p.map b = some ptr → a = b
  cache : ∀ a, p.cachedReg = some a → ∃ ptr, p.cachedEnt = some ptr ∧ p.map a = some ptr

variable {L}

theorem upd_same {β : Type} (f : Nat → β) (a : Nat) (b : β) : upd f a b a = b := by simp [upd]
theorem upd_ne {β : Type} (f : Nat → β) {a x : Nat} (b : β) (h : x ≠ a) : upd f a b x = f x := by simp [upd, h]

/-- the initial world -/
theorem Inv.init : Inv L (World.init V) { map := fun _ => none, cachedReg := none, cachedEnt := none, services := fun _ => false } (fun _ => none) := by
  constructor <;> simp [World.init]

/-- the non-const `get_entries` succeeds and yields the registered pointer -/
theorem getEntries_spec {w : World V} {p : Psi} {s : Nat → Option (SReg E)} (h : Inv L w p s) {a : Nat} {r : RegInfo}
    (hr : w.regs a = some r) :
    ∃ w1 p1 ptr, getEntries vec w p a = some (w1, p1, ptr) ∧ Inv L w1 p1 s ∧ p1.map a = some ptr := by
  unfold getEntries
  split
  · cases hm : p.map a with
    | none =>
      have hns := (h.hasnt a hm).1 r hr
      have hserv : p.services a = false := by
        cases hs : p.services a with
        | false => rfl
        | true =>
          obtain ⟨r', hr', hs'⟩ := (h.serv a).1 hs
          rw [hr] at hr'; simp at hr'; subst hr'; rw [hns] at hs'; simp at hs'
      simp only [subscribe, hr, hns, hserv, Option.bind_eq_bind, Option.bind_some, Bool.false_eq_true, if_false]
      refine ⟨_, _, _, rfl, ?_, upd_same _ _ _⟩
      refine ⟨?_, h.mat, h.dflt, ?_, ?_, ?_, ?_, ?_⟩
      · intro x
        by_cases hx : x = a
        · subst hx; simp only [upd_same]; rw [← h.dom, hr]; rfl
        · simp only [upd_ne _ _ hx]; exact h.dom x
      · intro x
        by_cases hx : x = a
        · subst hx; simp [upd_same]
        · simp only [upd_ne _ _ hx]; exact h.serv x
      · intro x ptr hx
        by_cases hxa : x = a
        · subst hxa
          simp only [upd_same, Option.some.injEq] at hx
          subst hx
          have hd := h.dom x
          rw [hr] at hd
          cases hsx : s x with
          | none => rw [hsx] at hd; simp at hd
          | some sr =>
            refine ⟨Nat.lt_succ_self _, _, sr, _, [], upd_same _ _ _, rfl, hsx, upd_same _ _ _, L.empty, ?_, ?_⟩
            · simp [(h.hasnt x hm).2 sr hsx]
            · intro i hi; rw [(h.hasnt x hm).2 sr hsx] at hi; omega
        · simp only [upd_ne _ _ hxa] at hx
          obtain ⟨hlt, r', sr, v, l, h1, h2, h3, h4, h5⟩ := h.has x ptr hx
          refine ⟨Nat.lt_succ_of_lt hlt, r', sr, v, l, ?_, h2, h3, ?_, h5⟩
          · simp only [upd_ne _ _ hxa]; exact h1
          · simp only []; rw [upd_ne _ _ (Nat.ne_of_lt hlt)]; exact h4
      · intro x hx
        by_cases hxa : x = a
        · subst hxa; simp [upd_same] at hx
        · simp only [upd_ne _ _ hxa] at hx ⊢; exact h.hasnt x hx
      · intro x y ptr hx hy
        by_cases hxa : x = a <;> by_cases hya : y = a
        · omega
        · subst hxa; simp only [upd_same, Option.some.injEq, upd_ne _ _ hya] at hx hy
          have := (h.has y ptr hy).lt; omega
        · subst hya; simp only [upd_same, Option.some.injEq, upd_ne _ _ hxa] at hx hy
          have := (h.has x ptr hx).lt; omega
        · simp only [upd_ne _ _ hxa, upd_ne _ _ hya] at hx hy; exact h.inj x y ptr hx hy
      · intro x hx
        simp only [Option.some.injEq] at hx
        subst hx
        exact ⟨w.next, rfl, upd_same _ _ _⟩
    | some ptr =>
      refine ⟨_, _, _, rfl, ⟨h.dom, h.mat, h.dflt, h.serv, h.has, h.hasnt, h.inj, ?_⟩, hm⟩
      intro x hx
      simp only [Option.some.injEq] at hx
      subst hx
      exact ⟨ptr, rfl, hm⟩
  · rename_i hc
    obtain ⟨ptr, h1, h2⟩ := h.cache a (by simpa using hc)
    rw [h1]
    exact ⟨_, _, _, rfl, h, h2⟩

theorem getEntriesConst_spec {w : World V} {p : Psi} {s : Nat → Option (SReg E)} (h : Inv L w p s) (a : Nat) :
    ∃ p1, getEntriesConst p a = some (p1, p.map a) ∧ Inv L w p1 s := by
  unfold getEntriesConst
  split
  · cases hm : p.map a with
    | none => exact ⟨p, rfl, h⟩
    | some ptr =>
      refine ⟨_, rfl, ⟨h.dom, h.mat, h.dflt, h.serv, h.has, h.hasnt, h.inj, ?_⟩⟩
      intro x hx
      simp only [Option.some.injEq] at hx
      subst hx
      exact ⟨ptr, rfl, hm⟩
  · rename_i hc
    obtain ⟨ptr, h1, h2⟩ := h.cache a (by simpa using hc)
    rw [h1, h2]
    exact ⟨p, rfl, h⟩

/-- replacing the vector behind the pointer of registry `a` -/
theorem Inv.replace {w : World V} {p : Psi} {s : Nat → Option (SReg E)} (h : Inv L w p s) {a ptr : Nat}
    (hm : p.map a = some ptr) {v' : V} {l' : List E} {sr : SReg E} {n : Nat} {f : Nat → E} (hs : s a = some sr)
    (hv : L.Rep v' l') (hl : l'.length = n) (hn : n ≤ sr.size) (hf : ∀ i, i < n → l'[i]? = some (f i))
    (hd : ∀ i, n ≤ i → f i = d) :
    Inv L { w with heap := upd w.heap ptr (some v'), psi := some p } p (upd s a (some { sr with mat := n, val := f })) := by
  refine ⟨?_, ?_, ?_, h.serv, ?_, ?_, h.inj, h.cache⟩
  · intro x
    by_cases hx : x = a
    · subst hx; simp only [upd_same]; rw [h.dom, hs]; rfl
    · simp only [upd_ne _ _ hx]; exact h.dom x
  · intro x sr' hx
    by_cases hxa : x = a
    · subst hxa; simp only [upd_same, Option.some.injEq] at hx; subst hx; exact hn
    · simp only [upd_ne _ _ hxa] at hx; exact h.mat x sr' hx
  · intro x sr' hx
    by_cases hxa : x = a
    · subst hxa; simp only [upd_same, Option.some.injEq] at hx; subst hx; exact hd
    · simp only [upd_ne _ _ hxa] at hx; exact h.dflt x sr' hx
  · intro x ptr' hx
    obtain ⟨hlt, r', sr', v, l, h1, h2, h3, h4, h5⟩ := h.has x ptr' hx
    by_cases hxa : x = a
    · subst hxa
      have : ptr' = ptr := by rw [hm] at hx; simpa using hx.symm
      subst this
      exact ⟨hlt, r', _, v', l', h1, h2, upd_same _ _ _, upd_same _ _ _, hv, hl, hf⟩
    · have hne : ptr' ≠ ptr := by
        intro e; subst e; exact hxa (h.inj x a ptr' hx hm)
      refine ⟨hlt, r', sr', v, l, h1, h2, ?_, ?_, h5⟩
      · simp only [upd_ne _ _ hxa]; exact h3
      · simp only [upd_ne _ _ hne]; exact h4
  · intro x hx
    by_cases hxa : x = a
    · subst hxa; rw [hm] at hx; simp at hx
    · simp only [upd_ne _ _ hxa]; exact h.hasnt x hx

theorem access_spec {w : World V} {p : Psi} {s : Nat → Option (SReg E)} (hp : w.psi = some p) (h : Inv L w p s)
    {a id : Nat} {sr : SReg E} (hs : s a = some sr) (hid : id < sr.size) :
    ∃ w1 p1 ptr v l, access vec w a id = some (w1, ptr) ∧ w1.psi = some p1 ∧ Inv L w1 p1 (upd s a (some sr.touch)) ∧
      p1.map a = some ptr ∧ w1.heap ptr = some v ∧ L.Rep v l ∧ l.length = sr.size ∧
      ∀ i, i < sr.size → l[i]? = some (sr.val i) := by
  have hd := h.dom a
  rw [hs] at hd
  cases hr : w.regs a with
  | none => rw [hr] at hd; simp at hd
  | some r =>
    rw [hr] at hd
    have hsz : r.size = sr.size := by simpa using hd
    obtain ⟨w1, p1, ptr, e1, h1, hm1⟩ := getEntries_spec h hr
    obtain ⟨hlt, r1, sr1, v, l, g1, g2, g3, g4, g5, g6, g7⟩ := h1.has a ptr hm1
    have : sr1 = sr := by rw [hs] at g3; simpa using g3.symm
    subst this
    have hmle := h1.mat a sr1 hs
    have hvs : vec.size v = sr1.mat := by rw [L.size g5, g6]
    have hex : ∃ v' l', ensureSize vec v r.size = some v' ∧ L.Rep v' l' ∧
        l'.length = sr1.size ∧ ∀ i, i < sr1.size → l'[i]? = some (sr1.val i) := by
      unfold ensureSize
      split
      · obtain ⟨v', e, hv'⟩ := L.resize r.size g5 (by omega)
        refine ⟨v', _, e, hv', by simp; omega, ?_⟩
        intro i hi
        by_cases hil : i < l.length
        · rw [List.getElem?_append_left hil]; exact g7 i (by omega)
        · rw [List.getElem?_append_right (by omega), List.getElem?_replicate]
          rw [if_pos (by omega), h1.dflt a sr1 hs i (by omega)]
      · rename_i hnl
        exact ⟨v, l, rfl, g5, by omega, fun i hi => g7 i (by omega)⟩
    obtain ⟨v', l', e', hv', hl', hval'⟩ := hex
    refine ⟨{ w1 with heap := upd w1.heap ptr (some v'), psi := some p1 }, p1, ptr, v', l', ?_, rfl, ?_, hm1,
      upd_same _ _ _, hv', hl', hval'⟩
    · unfold access
      rw [hp, hr]
      simp only [Option.bind_eq_bind, Option.bind_some]
      rw [if_neg (by omega), e1]
      simp only [Option.bind_some]
      rw [g4]
      simp only [Option.bind_some]
      rw [e']
      rfl
    · exact h1.replace hm1 hs hv' hl' (Nat.le_refl _) hval'
        (fun i hi => h.dflt a sr1 hs i (by omega))

theorem readMut_spec {w : World V} {p : Psi} {s : Nat → Option (SReg E)} (hp : w.psi = some p) (h : Inv L w p s)
    {a id : Nat} {sr : SReg E} (hs : s a = some sr) (hid : id < sr.size) :
    ∃ w1 p1, readMut vec w a id = some (w1, sr.val id) ∧ w1.psi = some p1 ∧ Inv L w1 p1 (upd s a (some sr.touch)) := by
  obtain ⟨w1, p1, ptr, v, l, e, hp1, hi, _, hv, hl, _, hval⟩ := access_spec hp h hs hid
  refine ⟨w1, p1, ?_, hp1, hi⟩
  unfold readMut
  rw [e]
  simp only [Option.bind_eq_bind, Option.bind_some]
  rw [hv]
  simp only [Option.bind_some]
  rw [L.get hl, hval id hid]
  rfl

theorem write_spec {w : World V} {p : Psi} {s : Nat → Option (SReg E)} (hp : w.psi = some p) (h : Inv L w p s)
    {a id : Nat} {sr : SReg E} (hs : s a = some sr) (hid : id < sr.size) {x : W} (hx : ok x) :
    ∃ w1 p1, write vec w a id x = some w1 ∧ w1.psi = some p1 ∧
      Inv L w1 p1 (upd s a (some { sr with mat := sr.size, val := upd sr.val id (app (sr.val id) x) })) := by
  obtain ⟨w1, p1, ptr, v, l, e, hp1, hi, hm, hv, hl, hlen, hval⟩ := access_spec hp h hs hid
  obtain ⟨v', ev, hv'⟩ := L.put hl id (sr.val id) x (hval id hid) hx
  refine ⟨{ w1 with heap := upd w1.heap ptr (some v') }, p1, ?_, ?_, ?_⟩
  · unfold write
    rw [e]
    simp only [Option.bind_eq_bind, Option.bind_some]
    rw [hv]
    simp only [Option.bind_some]
    rw [ev]
    rfl
  · exact hp1
  · have := hi.replace hm (sr := sr.touch) (upd_same _ _ _) hv' (n := sr.size) (f := upd sr.val id (app (sr.val id) x))
      (by simp [hlen]) (Nat.le_refl _) (by
        intro i hil
        by_cases hii : i = id
        · subst hii; rw [upd_same, List.getElem?_set_self (by omega)]
        · rw [upd_ne _ _ hii, List.getElem?_set_ne (by omega)]; exact hval i hil)
      (by
        intro i hil
        rw [upd_ne _ _ (by omega)]
        exact h.dflt a sr hs i (by have := h.mat a sr hs; omega))
    have hu : upd (upd s a (some sr.touch)) a (some { sr.touch with mat := sr.size, val := upd sr.val id (app (sr.val id) x) }) =
        upd s a (some { sr with mat := sr.size, val := upd sr.val id (app (sr.val id) x) }) := by
      funext y; unfold upd SReg.touch; split <;> simp [*]
    rw [hu] at this
    rw [hp1.symm] at this
    exact this

theorem readConst_spec {w : World V} {p : Psi} {s : Nat → Option (SReg E)} (hp : w.psi = some p) (h : Inv L w p s)
    {a id : Nat} {sr : SReg E} (hs : s a = some sr) (hid : id < sr.size) (missing : Option E) :
    ∃ w1 p1, readConst vec missing w a id = some (w1, if id < sr.mat then some (sr.val id) else missing) ∧
      w1.psi = some p1 ∧ Inv L w1 p1 s := by
  have hd := h.dom a
  rw [hs] at hd
  cases hr : w.regs a with
  | none => rw [hr] at hd; simp at hd
  | some r =>
    rw [hr] at hd
    have hsz : r.size = sr.size := by simpa using hd
    obtain ⟨p1, e1, h1⟩ := getEntriesConst_spec h a
    have hi' : Inv L { w with psi := some p1 } p1 s :=
      ⟨h1.dom, h1.mat, h1.dflt, h1.serv, fun a ptr hx => ⟨(h1.has a ptr hx).lt, (h1.has a ptr hx).ex⟩, h1.hasnt, h1.inj, h1.cache⟩
    refine ⟨{ w with psi := some p1 }, p1, ?_, rfl, hi'⟩
    unfold readConst
    rw [hp, hr]
    simp only [Option.bind_eq_bind, Option.bind_some]
    rw [if_neg (by omega), e1]
    simp only [Option.bind_some]
    cases hm : p.map a with
    | none =>
      have := (h.hasnt a hm).2 sr hs
      simp only [this, Nat.not_lt_zero, if_false]
    | some ptr =>
      obtain ⟨hlt, r1, sr1, v, l, g1, g2, g3, g4, g5, g6, g7⟩ := h.has a ptr hm
      have : sr1 = sr := by rw [hs] at g3; simpa using g3.symm
      subst this
      have hvs : vec.size v = sr1.mat := by rw [L.size g5, g6]
      simp only [g4, Option.bind_some]
      by_cases hlt : id < sr1.mat
      · rw [if_neg (by omega), L.get g5, g7 id hlt, if_pos hlt]; rfl
      · rw [if_pos (by omega), if_neg hlt]

theorem newReg_spec {w : World V} {p : Psi} {s : Nat → Option (SReg E)} (h : Inv L w p s) {a : Nat} (hs : s a = none) :
    ∃ w1, newReg w a = some w1 ∧ w1.psi = w.psi ∧ Inv L w1 p (upd s a (some { size := 0, mat := 0, val := fun _ => d })) := by
  have hr : w.regs a = none := by have := h.dom a; rw [hs] at this; simpa using this
  have hm : p.map a = none := by
    cases hm : p.map a with
    | none => rfl
    | some ptr => obtain ⟨_, r, _, _, _, g, _⟩ := h.has a ptr hm; rw [hr] at g; simp at g
  have hsv : p.services a = false := by
    cases hsv : p.services a with
    | false => rfl
    | true => obtain ⟨r, g, _⟩ := (h.serv a).1 hsv; rw [hr] at g; simp at g
  refine ⟨{ w with regs := upd w.regs a (some { size := 0, subscribed := false }) }, by unfold newReg; rw [hr], rfl, ?_⟩
  refine ⟨?_, ?_, ?_, ?_, ?_, ?_, h.inj, h.cache⟩
  · intro x
    by_cases hx : x = a
    · subst hx; simp [upd_same]
    · simp only [upd_ne _ _ hx]; exact h.dom x
  · intro x sr' hx
    by_cases hxa : x = a
    · subst hxa; simp only [upd_same, Option.some.injEq] at hx; subst hx; simp
    · simp only [upd_ne _ _ hxa] at hx; exact h.mat x sr' hx
  · intro x sr' hx
    by_cases hxa : x = a
    · subst hxa; simp only [upd_same, Option.some.injEq] at hx; subst hx; simp
    · simp only [upd_ne _ _ hxa] at hx; exact h.dflt x sr' hx
  · intro x
    by_cases hxa : x = a
    · subst hxa; simp [upd_same, hsv]
    · simp only [upd_ne _ _ hxa]; exact h.serv x
  · intro x ptr hx
    have hxa : x ≠ a := by intro e; subst e; rw [hm] at hx; simp at hx
    obtain ⟨hlt, r', sr', v, l, h1, h2, h3, h4⟩ := h.has x ptr hx
    refine ⟨hlt, r', sr', v, l, ?_, h2, ?_, h4⟩
    · simp only [upd_ne _ _ hxa]; exact h1
    · simp only [upd_ne _ _ hxa]; exact h3
  · intro x hx
    by_cases hxa : x = a
    · subst hxa; simp [upd_same]
    · simp only [upd_ne _ _ hxa]; exact h.hasnt x hx

theorem growReg_spec {w : World V} {p : Psi} {s : Nat → Option (SReg E)} (h : Inv L w p s) {a : Nat} {sr : SReg E}
    (hs : s a = some sr) :
    ∃ w1, growReg w a = some w1 ∧ w1.psi = w.psi ∧ Inv L w1 p (upd s a (some { sr with size := sr.size + 1 })) := by
  have hd := h.dom a
  rw [hs] at hd
  cases hr : w.regs a with
  | none => rw [hr] at hd; simp at hd
  | some r =>
    rw [hr] at hd
    have hsz : r.size = sr.size := by simpa using hd
    refine ⟨{ w with regs := upd w.regs a (some { r with size := r.size + 1 }) }, by unfold growReg; rw [hr]; rfl, rfl, ?_⟩
    refine ⟨?_, ?_, ?_, ?_, ?_, ?_, h.inj, h.cache⟩
    · intro x
      by_cases hx : x = a
      · subst hx; simp [upd_same, hsz]
      · simp only [upd_ne _ _ hx]; exact h.dom x
    · intro x sr' hx
      by_cases hxa : x = a
      · subst hxa; simp only [upd_same, Option.some.injEq] at hx; subst hx
        have := h.mat x sr hs; simp only; omega
      · simp only [upd_ne _ _ hxa] at hx; exact h.mat x sr' hx
    · intro x sr' hx
      by_cases hxa : x = a
      · subst hxa; simp only [upd_same, Option.some.injEq] at hx; subst hx; exact h.dflt x sr hs
      · simp only [upd_ne _ _ hxa] at hx; exact h.dflt x sr' hx
    · intro x
      by_cases hxa : x = a
      · subst hxa; rw [h.serv]; simp [upd_same, hr]
      · simp only [upd_ne _ _ hxa]; exact h.serv x
    · intro x ptr hx
      obtain ⟨hlt, r', sr', v, l, h1, h2, h3, h4⟩ := h.has x ptr hx
      by_cases hxa : x = a
      · subst hxa
        rw [hr] at h1; rw [hs] at h3
        simp only [Option.some.injEq] at h1 h3
        subst h1; subst h3
        exact ⟨hlt, _, _, v, l, upd_same _ _ _, h2, upd_same _ _ _, h4⟩
      · refine ⟨hlt, r', sr', v, l, ?_, h2, ?_, h4⟩
        · simp only [upd_ne _ _ hxa]; exact h1
        · simp only [upd_ne _ _ hxa]; exact h3
    · intro x hx
      by_cases hxa : x = a
      · subst hxa
        have := h.hasnt x hx
        constructor
        · intro r' hr'; simp only [upd_same, Option.some.injEq] at hr'; subst hr'; exact this.1 r hr
        · intro sr' hr'; simp only [upd_same, Option.some.injEq] at hr'; subst hr'; exact this.2 sr hs
      · simp only [upd_ne _ _ hxa]; exact h.hasnt x hx

theorem destroyReg_spec {w : World V} {p : Psi} {s : Nat → Option (SReg E)} (hp : w.psi = some p) (h : Inv L w p s)
    {a : Nat} {sr : SReg E} (hs : s a = some sr) :
    ∃ w1 p1, destroyReg w a = some w1 ∧ w1.psi = some p1 ∧ Inv L w1 p1 (upd s a none) := by
  have hd := h.dom a
  rw [hs] at hd
  cases hr : w.regs a with
  | none => rw [hr] at hd; simp at hd
  | some r =>
    cases hsub : r.subscribed with
    | false =>
      have hm : p.map a = none := by
        cases hm : p.map a with
        | none => rfl
        | some ptr =>
          obtain ⟨_, r', _, _, _, g, g2, _⟩ := h.has a ptr hm
          rw [hr] at g; simp only [Option.some.injEq] at g; subst g; rw [hsub] at g2; simp at g2
      have hsv : p.services a = false := by
        cases hsv : p.services a with
        | false => rfl
        | true =>
          obtain ⟨r', g, g2⟩ := (h.serv a).1 hsv
          rw [hr] at g; simp only [Option.some.injEq] at g; subst g; rw [hsub] at g2; simp at g2
      refine ⟨{ w with regs := upd w.regs a none }, p, by unfold destroyReg; rw [hr]; simp only [Option.bind_eq_bind, Option.bind_some, hsub]; rfl, hp, ?_⟩
      refine ⟨?_, ?_, ?_, ?_, ?_, ?_, h.inj, h.cache⟩
      · intro x
        by_cases hx : x = a
        · subst hx; simp [upd_same]
        · simp only [upd_ne _ _ hx]; exact h.dom x
      · intro x sr' hx
        by_cases hxa : x = a
        · subst hxa; simp [upd_same] at hx
        · simp only [upd_ne _ _ hxa] at hx; exact h.mat x sr' hx
      · intro x sr' hx
        by_cases hxa : x = a
        · subst hxa; simp [upd_same] at hx
        · simp only [upd_ne _ _ hxa] at hx; exact h.dflt x sr' hx
      · intro x
        by_cases hxa : x = a
        · subst hxa; simp [upd_same, hsv]
        · simp only [upd_ne _ _ hxa]; exact h.serv x
      · intro x ptr hx
        have hxa : x ≠ a := by intro e; subst e; rw [hm] at hx; simp at hx
        obtain ⟨hlt, r', sr', v, l, h1, h2, h3, h4⟩ := h.has x ptr hx
        refine ⟨hlt, r', sr', v, l, ?_, h2, ?_, h4⟩
        · simp only [upd_ne _ _ hxa]; exact h1
        · simp only [upd_ne _ _ hxa]; exact h3
      · intro x hx
        by_cases hxa : x = a
        · subst hxa; simp [upd_same]
        · simp only [upd_ne _ _ hxa]; exact h.hasnt x hx
    | true =>
      have hsv : p.services a = true := (h.serv a).2 ⟨r, hr, hsub⟩
      cases hm : p.map a with
      | none => have := (h.hasnt a hm).1 r hr; rw [hsub] at this; simp at this
      | some ptr =>
        obtain ⟨hlt, r', sr', v, l, h1, h2, h3, h4, _⟩ := h.has a ptr hm
        let w1 : World V := { w with heap := upd w.heap ptr none }
        let p1 : Psi := if p.cachedReg = some a then { p with map := upd p.map a none, cachedReg := none, cachedEnt := none }
          else { p with map := upd p.map a none }
        have hn : notifyDestroyed w p a = some (w1, p1) := by
          unfold notifyDestroyed
          rw [hm]
          simp [deletePtr, h4, w1, p1]
        have hps : p1.services = p.services := by simp only [p1]; split <;> rfl
        have hpm : p1.map = upd p.map a none := by simp only [p1]; split <;> rfl
        refine ⟨{ w1 with psi := some { p1 with services := upd p1.services a false }, regs := upd w1.regs a none },
          { p1 with services := upd p1.services a false }, ?_, rfl, ?_⟩
        · unfold destroyReg
          rw [hr]
          simp only [Option.bind_eq_bind, Option.bind_some, hsub, if_true]
          rw [hp]
          simp only [Option.bind_some]
          rw [hn]
          simp [hps, hsv]
        · refine ⟨?_, ?_, ?_, ?_, ?_, ?_, ?_, ?_⟩
          · intro x
            by_cases hx : x = a
            · subst hx; simp [upd_same]
            · simp only [upd_ne _ _ hx]; exact h.dom x
          · intro x sr' hx
            by_cases hxa : x = a
            · subst hxa; simp [upd_same] at hx
            · simp only [upd_ne _ _ hxa] at hx; exact h.mat x sr' hx
          · intro x sr' hx
            by_cases hxa : x = a
            · subst hxa; simp [upd_same] at hx
            · simp only [upd_ne _ _ hxa] at hx; exact h.dflt x sr' hx
          · intro x
            by_cases hxa : x = a
            · subst hxa; simp [upd_same]
            · simp only [upd_ne _ _ hxa, hps]; exact h.serv x
          · intro x ptr' hx
            simp only [hpm] at hx
            have hxa : x ≠ a := by intro e; subst e; simp [upd_same] at hx
            rw [upd_ne _ _ hxa] at hx
            have hne : ptr' ≠ ptr := by intro e; subst e; exact hxa (h.inj x a ptr' hx hm)
            obtain ⟨hlt', r', sr', v, l, h1, h2, h3, h4, h5⟩ := h.has x ptr' hx
            refine ⟨hlt', r', sr', v, l, ?_, h2, ?_, ?_, h5⟩
            · simp only [upd_ne _ _ hxa]; exact h1
            · simp only [upd_ne _ _ hxa]; exact h3
            · simp only [w1, upd_ne _ _ hne]; exact h4
          · intro x hx
            by_cases hxa : x = a
            · subst hxa; simp [upd_same]
            · simp only [hpm, upd_ne _ _ hxa] at hx
              simp only [upd_ne _ _ hxa]; exact h.hasnt x hx
          · intro x y q hx hy
            simp only [hpm] at hx hy
            have hxa : x ≠ a := by intro e; subst e; simp [upd_same] at hx
            have hya : y ≠ a := by intro e; subst e; simp [upd_same] at hy
            rw [upd_ne _ _ hxa] at hx
            rw [upd_ne _ _ hya] at hy
            exact h.inj x y q hx hy
          · intro x hx
            simp only [p1] at hx
            split at hx
            · simp at hx
            · rename_i hc
              simp only at hx
              have hxa : x ≠ a := by intro e; subst e; exact hc hx
              obtain ⟨q, g1, g2⟩ := h.cache x hx
              refine ⟨q, ?_, ?_⟩
              · simp only [p1, if_neg hc]; exact g1
              · simp only [hpm]; rw [upd_ne _ _ hxa]; exact g2

end

end Verif.PerState
