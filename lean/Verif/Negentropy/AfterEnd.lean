import Verif.Negentropy.Hostile
/-! C108: what a relay can still do after the end of a session -/

set_option autoImplicit false

namespace GoNostr.Neg.AfterEnd

/-- C108: once the session has ended, a message is survived only if it neither ends it again nor brings an id; and then nothing is found any more. -/
theorem C108_after_end (H : Hash32) (n : Neg) (msg out : Bytes) (n' : Neg) (closed : Bool) (h : deliver H n true msg = .ok (out, n', closed)) :
    closed = true ∧ n'.haves = n.haves ∧ n'.haveNots = n.haveNots ∧ reconcile H n msg = .ok (out, n', false) := by
  unfold deliver at h
  cases hr : reconcile H n msg with
  | panic => rw [hr] at h; cases h
  | err e => rw [hr] at h; cases h
  | ok r =>
    obtain ⟨o, m, done⟩ := r
    rw [hr] at h
    simp only [Res.ok_bind, true_and] at h
    split at h
    · cases h
    · rename_i hc
      simp only [pure, Res.ok.injEq, Prod.mk.injEq] at h
      obtain ⟨rfl, rfl, rfl⟩ := h
      simp only [not_or, Classical.not_not, ne_eq, Bool.not_eq_true] at hc
      obtain ⟨h1, h2, h3⟩ := hc
      exact ⟨rfl, h2, h3, by rw [h1]⟩

/-- Non-vacuity: a message with an unknown protocol version is answered also after the end. -/
example : (match deliver padHash { items := [] } true (b! "62") with | .ok (_, _, c) => c | _ => false) = true := by decide +kernel

end GoNostr.Neg.AfterEnd
