import Verif.Lemmas.EagerProbe
import Verif.Model.LazySearch

/- Running lazy search on concrete tasks inside the kernel. -/
namespace Verif.Search
open Verif.OpenList

variable {S σ : Type} [DecidableEq S]

/-- the plan that lazy search reports in the next step if the current state is a new goal
state -/
def lazyProbe (w : World S) (E : LEnv S σ) (rel : Nat → Bool) : Option (Res (Lazy S σ)) → Option (List Nat)
  | some (.inProgress st) =>
    if (st.infos st.cur.state).status = .new ∧ w.goal st.cur.state = some true then
      match E.eval (Lazy.notify E st) st.cur.state st.cur.g with
      | none => none
      | some (c, _) =>
        if st.openList.isDeadEnd rel c then none
        else
          match (Lazy.openNode w st.infos st.cur false).bind closeNode with
          | none => none
          | some i => (traceFuel (upd st.infos st.cur.state i) 100 st.cur.state []).map List.reverse
    else none
  | _ => none

theorem lazyProbe_solved {w : World S} {E : LEnv S σ} {H : StdHeap (S × Nat)} {rel : Nat → Bool} {opts : LOptions} {cfg : Cfg} {rng : Rng} {env : σ} {n : Nat} {π : List Nat}
    (h : lazyProbe w E rel (Lazy.search w E H rel opts cfg rng env n) = some π) : Lazy.search w E H rel opts cfg rng env (n + 1) = some (.solved π) := by
  unfold Lazy.search at h ⊢
  cases hr : runFor (Lazy.step w E H rel opts) n (Lazy.initialize w E cfg rng env) with
  | none => rw [hr] at h; simp [lazyProbe] at h
  | some r =>
    rw [hr] at h
    cases r with
    | solved π => simp [lazyProbe] at h
    | failed => simp [lazyProbe] at h
    | inProgress st =>
      rw [runFor_succ _ _ _ _ hr]
      simp only [lazyProbe] at h
      split at h
      case isFalse => simp at h
      rename_i h1
      obtain ⟨h1, h2⟩ := h1
      cases he : E.eval (Lazy.notify E st) st.cur.state st.cur.g with
      | none => rw [he] at h; simp at h
      | some x =>
        obtain ⟨c, env'⟩ := x
        rw [he] at h
        simp only at h
        split at h
        case isTrue => simp at h
        rename_i h3
        cases ho : Lazy.openNode w st.infos st.cur false with
        | none => rw [ho] at h; simp at h
        | some i =>
          rw [ho] at h
          simp only [Option.bind_some] at h
          cases hc : closeNode i with
          | none => rw [hc] at h; simp at h
          | some i' =>
            rw [hc] at h
            simp only at h
            obtain ⟨p, h4, rfl⟩ := Option.map_eq_some_iff.mp h
            have : Lazy.step w E H rel opts st = some (.solved p.reverse) := by
              simp only [Lazy.step, Lazy.process, h1, if_true, Lazy.evaluate, he, h3, ho, Lazy.expand, hc, h2, tracePath, traceFuel_eq _ _ _ _ _ h4]
              simp
            simp [runFor, this]

end Verif.Search
