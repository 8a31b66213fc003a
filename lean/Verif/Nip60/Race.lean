import Verif.Nip60.Load

/-!
# Loading a wallet while its relays answer (C170)

`loadWallet` (nip60/wallet.go:113-226) starts three goroutines. Two of them hold the wallet's lock for as long as they handle one event, so together they are one *receiver* that handles one event
after the other. The third waits for the end of stored events and then removes the tokens whose deletion was noted; it takes no lock. This file models the three at the granularity of single reads
and writes of `w.Tokens`, `w.pendingDeletions` and `eosed`, for every interleaving.

Simplifications: memory is sequentially consistent (Go promises less for such races); the backing array of `w.Tokens` never has to grow (it is made with room for 128, wallet.go:124); the search for an
equal id before a token is appended is one step, and so are writing an appended element and publishing the longer slice.
-/

set_option autoImplicit false

namespace GoNostr.Nip60.Race

/-- What the receiver gets: a token event with the ids in its `del` list, or a deletion event with the ids in its `e` tags (wallet.go:144, 160). -/
inductive Msg
  | token (id : Bytes) (del : List Bytes)
  | deletion (ids : List Bytes)
  deriving DecidableEq, Repr

/-- `w.Tokens` (backing array and length), `w.pendingDeletions`, `eosed`, and whether a goroutine has panicked. -/
structure Sh where
  cells : List Bytes
  len : Nat
  pending : List Bytes
  eosed : Bool
  crashed : Bool
  deriving DecidableEq, Repr

/-- The wallet's tokens, by event id. -/
def Sh.tokens (s : Sh) : List Bytes := s.cells.take s.len

/-- Where a goroutine is in a loop of calls of `removeDeletedToken` (wallet.go:235-244). -/
inductive Rem
  /-- about to call it for the next id -/
  | next (ids : List Bytes)
  /-- about to look at index `t - 1` -/
  | scan (id : Bytes) (t : Nat) (ids : List Bytes)
  /-- about to run `w.Tokens[t] = w.Tokens[len(w.Tokens)-1]` -/
  | hit (id : Bytes) (t : Nat) (ids : List Bytes)
  /-- about to run `w.Tokens = w.Tokens[0 : len(w.Tokens)-1]` -/
  | cut (id : Bytes) (t : Nat) (ids : List Bytes)
  deriving DecidableEq, Repr

/-- One step of such a loop (wallet.go:235-244); an index or a bound out of range panics. `none`: the loop is over. -/
def remStep (s : Sh) : Rem → Option (Sh × Rem)
  | .next [] => none
  | .next (id :: ids) => some (s, .scan id s.len ids)
  | .scan _ 0 ids => some (s, .next ids)
  | .scan id (t + 1) ids =>
    if s.len ≤ t then some ({ s with crashed := true }, .scan id (t + 1) ids)
    else if s.cells[t]?.getD [] = id then some (s, .hit id t ids)
    else some (s, .scan id t ids)
  | .hit id t ids =>
    if s.len ≤ t then some ({ s with crashed := true }, .hit id t ids)
    else some ({ s with cells := s.cells.set t (s.cells[s.len - 1]?.getD []) }, .cut id t ids)
  | .cut id t ids =>
    if s.len = 0 then some ({ s with crashed := true }, .cut id t ids)
    else some ({ s with len := s.len - 1 }, .scan id t ids)

/-- Where the receiver is (wallet.go:143-157, 176-201). -/
inductive RPc
  | idle
  /-- has a token, about to look for its id in the wallet (wallet.go:187) -/
  | check (id : Bytes) (del : List Bytes)
  /-- about to read the slice for the append (wallet.go:188) -/
  | app (id : Bytes) (del : List Bytes)
  /-- has read a slice of length `n`, about to store the longer one (wallet.go:188) -/
  | store (id : Bytes) (del : List Bytes) (n : Nat)
  /-- about to read `eosed` (wallet.go:146, 193) -/
  | flag (ids : List Bytes)
  /-- about to read `w.pendingDeletions` for the next append (wallet.go:148, 195) -/
  | pend (ids : List Bytes)
  /-- has read it, about to store the longer one -/
  | pendW (id : Bytes) (ids : List Bytes) (snap : List Bytes)
  /-- removes the tokens at once (wallet.go:152, 199) -/
  | rem (m : Rem)
  deriving DecidableEq, Repr

/-- Where the goroutine of the end of stored events is (wallet.go:129-141). -/
inductive APc
  | waiting
  /-- `eosed` is set, about to read `w.pendingDeletions` (wallet.go:134) -/
  | flagged
  | rem (m : Rem)
  /-- about to forget the pending deletions (wallet.go:137) -/
  | clear
  | done
  deriving DecidableEq, Repr

/-- The shared wallet, the receiving goroutine and the other one. -/
structure St where
  sh : Sh
  r : RPc
  a : APc
  deriving DecidableEq, Repr

/-- Who moves: the receiver gets an event, the receiver goes one step on, the other goroutine goes one step on (its first step is the arrival of the end of stored events). -/
inductive Act
  | recv (m : Msg)
  | r
  | a
  deriving DecidableEq, Repr

/-- The receiver's step (wallet.go:143-157, 176-201). -/
def rStep (s : Sh) : RPc → Option (Sh × RPc)
  | .idle => none
  | .check id del => if s.tokens.contains id then some (s, .flag del) else some (s, .app id del)
  | .app id del => some (s, .store id del s.len)
  | .store id del n => some ({ s with cells := s.cells.take n ++ id :: s.cells.drop (n + 1), len := n + 1 }, .flag del)
  | .flag ids => if s.eosed then some (s, .rem (.next ids)) else some (s, .pend ids)
  | .pend [] => some (s, .idle)
  | .pend (id :: ids) => some (s, .pendW id ids s.pending)
  | .pendW id ids snap => some ({ s with pending := snap ++ [id] }, .pend ids)
  | .rem m => match remStep s m with
    | some (s', m') => some (s', .rem m')
    | none => some (s, .idle)

/-- The other goroutine's step (wallet.go:129-141). -/
def aStep (s : Sh) : APc → Option (Sh × APc)
  | .waiting => some ({ s with eosed := true }, .flagged)
  | .flagged => some (s, .rem (.next s.pending))
  | .rem m => match remStep s m with
    | some (s', m') => some (s', .rem m')
    | none => some (s, .clear)
  | .clear => some ({ s with pending := [] }, .done)
  | .done => none

/-- What the receiver does first with an event (wallet.go:146, 187). -/
def start : Msg → RPc
  | .token id del => .check id del
  | .deletion ids => .flag ids

/-- One step of the loader, `none` if that step is not possible now. A panic ends the program. -/
def step (st : St) (act : Act) : Option St :=
  if st.sh.crashed then none else
  match act with
  | .recv m => if st.r = .idle then some { st with r := start m } else none
  | .r => (rStep st.sh st.r).map fun (s, r) => { st with sh := s, r := r }
  | .a => (aStep st.sh st.a).map fun (s, a) => { st with sh := s, a := a }

/-- The wallet as `loadWallet` makes it (wallet.go:120-126). -/
def init : St := ⟨⟨[], 0, [], false, false⟩, .idle, .waiting⟩

/-- A schedule: the actions one after the other. -/
def run (st : St) : List Act → Option St
  | [] => some st
  | x :: xs => (step st x).bind (run · xs)

/-! ## Specification -/

/-- The events received in a run, in order. -/
def recvs : List Act → List Msg
  | [] => []
  | .recv m :: as => m :: recvs as
  | _ :: as => recvs as

/-- The token an event brings. -/
def Msg.received : Msg → List Bytes
  | .token id _ => [id]
  | .deletion _ => []

/-- The tokens an event deletes. -/
def Msg.deleted : Msg → List Bytes
  | .token _ del => del
  | .deletion ids => ids

/-- The event as the loader of `C94` sees it. -/
def Msg.op : Msg → LoadOp
  | .token id del => .token id del
  | .deletion ids => .deletion ids

/-! ## Runs -/

theorem run_append (st : St) : ∀ (xs ys : List Act), run st (xs ++ ys) = (run st xs).bind (run · ys) := by
  intro xs
  induction xs generalizing st with
  | nil => intro ys; rfl
  | cons x xs ih =>
    intro ys
    simp only [List.cons_append, run]
    cases h : step st x with
    | none => rfl
    | some st' => simp [ih st' ys]

theorem recvs_append : ∀ (xs ys : List Act), recvs (xs ++ ys) = recvs xs ++ recvs ys
  | [], _ => rfl
  | .recv m :: xs, ys => by simp [recvs, recvs_append xs ys]
  | .r :: xs, ys => by simp [recvs, recvs_append xs ys]
  | .a :: xs, ys => by simp [recvs, recvs_append xs ys]

theorem recvs_mem {m : Msg} : ∀ {xs : List Act}, m ∈ recvs xs ↔ Act.recv m ∈ xs
  | [] => by simp [recvs]
  | .recv m' :: xs => by simp [recvs, recvs_mem (xs := xs)]
  | .r :: xs => by simp [recvs, recvs_mem (xs := xs)]
  | .a :: xs => by simp [recvs, recvs_mem (xs := xs)]

/-- Induction over runs, with what has been received so far. -/
theorem run_inv (P : List Msg → St → Prop) (hr : ∀ h st st', P h st → step st .r = some st' → P h st')
    (ha : ∀ h st st', P h st → step st .a = some st' → P h st') (hm : ∀ h st st' m, P h st → step st (.recv m) = some st' → P (h ++ [m]) st') :
    ∀ (acts : List Act) (h : List Msg) (st st' : St), P h st → run st acts = some st' → P (h ++ recvs acts) st'
  | [], h, st, st', hp, e => by
    simp only [run, Option.some.injEq] at e
    subst e
    simpa [recvs] using hp
  | x :: xs, h, st, st', hp, e => by
    simp only [run] at e
    cases e1 : step st x with
    | none => rw [e1] at e; simp at e
    | some st1 =>
      rw [e1] at e
      simp only [Option.bind_some] at e
      cases x with
      | recv m =>
        have := run_inv P hr ha hm xs (h ++ [m]) st1 st' (hm h st st1 m hp e1) e
        simpa [recvs] using this
      | r => simpa [recvs] using run_inv P hr ha hm xs h st1 st' (hr h st st1 hp e1) e
      | a => simpa [recvs] using run_inv P hr ha hm xs h st1 st' (ha h st st1 hp e1) e

/-! ## Nothing is invented -/

/-- All cells up to `H` hold received ids, and nobody reaches beyond `H`. -/
def Sound (hist : List Msg) (st : St) : Prop :=
  ∃ H, st.sh.len ≤ H ∧ H ≤ st.sh.cells.length ∧ (∀ x ∈ st.sh.cells.take H, x ∈ hist.flatMap Msg.received) ∧
    match st.r with
    | .check id _ => id ∈ hist.flatMap Msg.received
    | .app id _ => id ∈ hist.flatMap Msg.received
    | .store id _ n => id ∈ hist.flatMap Msg.received ∧ n ≤ H
    | _ => True

theorem mem_set_take {l : List Bytes} {t H : Nat} {v x : Bytes} (h : x ∈ (l.set t v).take H) : x ∈ l.take H ∨ x = v := by
  rw [List.take_set] at h
  exact List.mem_or_eq_of_mem_set h

theorem remStep_sound {s s' : Sh} {m m' : Rem} {ids : List Bytes} {H : Nat} (h1 : s.len ≤ H) (h2 : H ≤ s.cells.length) (h3 : ∀ x ∈ s.cells.take H, x ∈ ids)
    (e : remStep s m = some (s', m')) : s'.len ≤ H ∧ H ≤ s'.cells.length ∧ (∀ x ∈ s'.cells.take H, x ∈ ids) := by
  cases m with
  | next l =>
    cases l with
    | nil => simp [remStep] at e
    | cons a l => simp only [remStep, Option.some.injEq, Prod.mk.injEq] at e; rw [← e.1]; exact ⟨h1, h2, h3⟩
  | scan id t l =>
    cases t with
    | zero => simp only [remStep, Option.some.injEq, Prod.mk.injEq] at e; rw [← e.1]; exact ⟨h1, h2, h3⟩
    | succ t =>
      simp only [remStep] at e
      split at e
      · simp only [Option.some.injEq, Prod.mk.injEq] at e; rw [← e.1]; exact ⟨h1, h2, h3⟩
      · split at e <;> (simp only [Option.some.injEq, Prod.mk.injEq] at e; rw [← e.1]; exact ⟨h1, h2, h3⟩)
  | hit id t l =>
    simp only [remStep] at e
    split at e
    · simp only [Option.some.injEq, Prod.mk.injEq] at e; rw [← e.1]; exact ⟨h1, h2, h3⟩
    · rename_i hl
      simp only [Option.some.injEq, Prod.mk.injEq] at e
      rw [← e.1]
      refine ⟨h1, by simpa using h2, fun x hx => ?_⟩
      rcases mem_set_take hx with hx | hx
      · exact h3 x hx
      · have hlt : s.len - 1 < s.cells.length := by omega
        rw [List.getElem?_eq_getElem hlt] at hx
        simp only [Option.getD_some] at hx
        refine h3 x ?_
        rw [hx, List.mem_take_iff_getElem]
        exact ⟨s.len - 1, by omega, rfl⟩
  | cut id t l =>
    simp only [remStep] at e
    split at e
    · simp only [Option.some.injEq, Prod.mk.injEq] at e; rw [← e.1]; exact ⟨h1, h2, h3⟩
    · simp only [Option.some.injEq, Prod.mk.injEq] at e
      rw [← e.1]
      exact ⟨by simp only; omega, h2, h3⟩

theorem sound_r (hist : List Msg) (st st' : St) (h : Sound hist st) (e : step st .r = some st') : Sound hist st' := by
  obtain ⟨H, h1, h2, h3, h4⟩ := h
  simp only [step] at e
  split at e
  · cases e
  cases hr : st.r with
  | idle => simp [hr, rStep] at e
  | check id del =>
    rw [hr] at h4
    simp only [hr, rStep] at e
    split at e <;> (simp only [Option.map_some, Option.some.injEq] at e; rw [← e])
    · exact ⟨H, h1, h2, h3, trivial⟩
    · exact ⟨H, h1, h2, h3, h4⟩
  | app id del =>
    rw [hr] at h4
    simp only [hr, rStep, Option.map_some, Option.some.injEq] at e
    rw [← e]
    exact ⟨H, h1, h2, h3, h4, h1⟩
  | store id del n =>
    rw [hr] at h4
    simp only [hr, rStep, Option.map_some, Option.some.injEq] at e
    rw [← e]
    obtain ⟨h4, h5⟩ := h4
    refine ⟨max H (n + 1), by simp only; omega, by simp only [List.length_append, List.length_take, List.length_cons, List.length_drop]; omega, fun x hx => ?_, trivial⟩
    have hx := List.mem_of_mem_take hx |> fun _ => hx
    rw [List.take_append] at hx
    rcases List.mem_append.1 hx with hx | hx
    · have := List.mem_of_mem_take hx
      exact h3 x (List.take_subset_take_left _ h5 this)
    · simp only [List.length_take] at hx
      have hm : min n st.sh.cells.length = n := by omega
      rw [hm] at hx
      obtain ⟨k, hk⟩ : ∃ k, max H (n + 1) - n = k + 1 := ⟨max H (n + 1) - n - 1, by omega⟩
      rw [hk, List.take_succ_cons] at hx
      rcases List.mem_cons.1 hx with rfl | hx
      · exact h4
      · refine h3 x ?_
        rw [List.mem_take_iff_getElem] at hx ⊢
        obtain ⟨i, hi, rfl⟩ := hx
        simp only [List.length_drop] at hi
        exact ⟨n + 1 + i, by omega, by simp⟩
  | flag ids =>
    simp only [hr, rStep] at e
    split at e <;> (simp only [Option.map_some, Option.some.injEq] at e; rw [← e]; exact ⟨H, h1, h2, h3, trivial⟩)
  | pend ids =>
    cases ids with
    | nil => simp only [hr, rStep, Option.map_some, Option.some.injEq] at e; rw [← e]; exact ⟨H, h1, h2, h3, trivial⟩
    | cons a l => simp only [hr, rStep, Option.map_some, Option.some.injEq] at e; rw [← e]; exact ⟨H, h1, h2, h3, trivial⟩
  | pendW id ids snap => simp only [hr, rStep, Option.map_some, Option.some.injEq] at e; rw [← e]; exact ⟨H, h1, h2, h3, trivial⟩
  | rem m =>
    simp only [hr, rStep] at e
    cases e2 : remStep st.sh m with
    | none => rw [e2] at e; simp only [Option.map_some, Option.some.injEq] at e; rw [← e]; exact ⟨H, h1, h2, h3, trivial⟩
    | some q =>
      obtain ⟨s', m'⟩ := q
      rw [e2] at e
      simp only [Option.map_some, Option.some.injEq] at e
      rw [← e]
      obtain ⟨g1, g2, g3⟩ := remStep_sound h1 h2 h3 e2
      exact ⟨H, g1, g2, g3, trivial⟩

theorem sound_a (hist : List Msg) (st st' : St) (h : Sound hist st) (e : step st .a = some st') : Sound hist st' := by
  obtain ⟨H, h1, h2, h3, h4⟩ := h
  simp only [step] at e
  split at e
  · cases e
  cases ha : st.a with
  | waiting => simp only [ha, aStep, Option.map_some, Option.some.injEq] at e; rw [← e]; exact ⟨H, h1, h2, h3, h4⟩
  | flagged => simp only [ha, aStep, Option.map_some, Option.some.injEq] at e; rw [← e]; exact ⟨H, h1, h2, h3, h4⟩
  | clear => simp only [ha, aStep, Option.map_some, Option.some.injEq] at e; rw [← e]; exact ⟨H, h1, h2, h3, h4⟩
  | done => simp [ha, aStep] at e
  | rem m =>
    simp only [ha, aStep] at e
    cases e2 : remStep st.sh m with
    | none => rw [e2] at e; simp only [Option.map_some, Option.some.injEq] at e; rw [← e]; exact ⟨H, h1, h2, h3, h4⟩
    | some q =>
      obtain ⟨s', m'⟩ := q
      rw [e2] at e
      simp only [Option.map_some, Option.some.injEq] at e
      rw [← e]
      obtain ⟨g1, g2, g3⟩ := remStep_sound h1 h2 h3 e2
      exact ⟨H, g1, g2, g3, h4⟩

theorem sound_recv (hist : List Msg) (st st' : St) (m : Msg) (h : Sound hist st) (e : step st (.recv m) = some st') : Sound (hist ++ [m]) st' := by
  obtain ⟨H, h1, h2, h3, -⟩ := h
  simp only [step] at e
  split at e
  · cases e
  split at e
  · simp only [Option.some.injEq] at e
    rw [← e]
    refine ⟨H, h1, h2, fun x hx => ?_, ?_⟩
    · rw [List.flatMap_append]; exact List.mem_append_left _ (h3 x hx)
    · cases m with
      | token id del => simp [start, Msg.received]
      | deletion ids => trivial
  · cases e

/-- **C170 (nothing is invented).** Whatever the interleaving, every token in the wallet is one that was received. -/
theorem C170_received (acts : List Act) (st : St) (e : run init acts = some st) (x : Bytes) (hx : x ∈ st.sh.tokens) : ∃ m ∈ recvs acts, x ∈ m.received := by
  have h := run_inv Sound sound_r sound_a sound_recv acts [] init st ⟨0, by simp [init], by simp, by simp [init], trivial⟩ e
  obtain ⟨H, h1, h2, h3, -⟩ := h
  have := h3 x (List.take_subset_take_left _ h1 hx)
  simpa using this

/-! ## When stored events end while the receiver rests -/

/-- What a loop of removals will have made of the tokens. -/
def remFinish (l : List Bytes) : Rem → List Bytes
  | .next ids => ids.foldl removeDeleted l
  | .scan id t ids => ids.foldl removeDeleted (removeBelow id t l)
  | .hit id t ids => ids.foldl removeDeleted (removeBelow id t ((l.set t (l.getLast?.getD [])).dropLast))
  | .cut id t ids => ids.foldl removeDeleted (removeBelow id t l.dropLast)

/-- The indices of the loop are in range. -/
def remOk (s : Sh) : Rem → Prop
  | .next _ => True
  | .scan _ t _ => t ≤ s.len
  | .hit _ t _ => t < s.len
  | .cut _ t _ => t < s.len

theorem take_getLast {l : List Bytes} {n : Nat} (h0 : 0 < n) (h : n ≤ l.length) : (l.take n).getLast? = l[n - 1]? := by
  rw [List.getLast?_eq_getElem?, List.length_take, List.getElem?_take]
  have : min n l.length - 1 = n - 1 := by omega
  rw [this, if_pos (by omega)]

theorem remStep_alone {s s' : Sh} {m m' : Rem} (hc : s.crashed = false) (hl : s.len ≤ s.cells.length) (hok : remOk s m) (e : remStep s m = some (s', m')) :
    remFinish s'.tokens m' = remFinish s.tokens m ∧ remOk s' m' ∧ s'.crashed = false ∧ s'.len ≤ s'.cells.length ∧ s'.pending = s.pending ∧ s'.eosed = s.eosed := by
  cases m with
  | next l =>
    cases l with
    | nil => simp [remStep] at e
    | cons a l =>
      simp only [remStep, Option.some.injEq, Prod.mk.injEq] at e
      obtain ⟨rfl, rfl⟩ := e
      refine ⟨?_, Nat.le_refl _, hc, hl, rfl, rfl⟩
      simp only [remFinish, List.foldl_cons, removeDeleted, Sh.tokens, List.length_take]
      rw [Nat.min_eq_left hl]
  | scan id t l =>
    cases t with
    | zero =>
      simp only [remStep, Option.some.injEq, Prod.mk.injEq] at e
      obtain ⟨rfl, rfl⟩ := e
      exact ⟨rfl, trivial, hc, hl, rfl, rfl⟩
    | succ t =>
      simp only [remOk] at hok
      simp only [remStep] at e
      rw [if_neg (by omega)] at e
      have hlt : t < s.cells.length := by omega
      have hget : s.tokens[t]? = some s.cells[t] := by
        simp only [Sh.tokens]
        rw [List.getElem?_take, if_pos (by omega), List.getElem?_eq_getElem hlt]
      rw [List.getElem?_eq_getElem hlt] at e
      simp only [Option.getD_some] at e
      split at e
      · rename_i hx
        simp only [Option.some.injEq, Prod.mk.injEq] at e
        obtain ⟨rfl, rfl⟩ := e
        refine ⟨?_, by simp only [remOk]; omega, hc, hl, rfl, rfl⟩
        simp only [remFinish, removeBelow, hget]
        rw [if_pos hx]
      · rename_i hx
        simp only [Option.some.injEq, Prod.mk.injEq] at e
        obtain ⟨rfl, rfl⟩ := e
        refine ⟨?_, by simp only [remOk]; omega, hc, hl, rfl, rfl⟩
        simp only [remFinish, removeBelow, hget]
        rw [if_neg hx]
  | hit id t l =>
    simp only [remOk] at hok
    simp only [remStep] at e
    rw [if_neg (by omega)] at e
    simp only [Option.some.injEq, Prod.mk.injEq] at e
    obtain ⟨rfl, rfl⟩ := e
    refine ⟨?_, hok, hc, by simpa using hl, rfl, rfl⟩
    simp only [remFinish, Sh.tokens]
    rw [List.take_set, take_getLast (by omega) hl]
  | cut id t l =>
    simp only [remOk] at hok
    simp only [remStep] at e
    rw [if_neg (by omega)] at e
    simp only [Option.some.injEq, Prod.mk.injEq] at e
    obtain ⟨rfl, rfl⟩ := e
    refine ⟨?_, by simp only [remOk]; omega, hc, by simp only; omega, rfl, rfl⟩
    simp only [remFinish, Sh.tokens]
    rw [List.dropLast_eq_take, List.length_take, List.take_take]
    have : min (min s.len s.cells.length - 1) s.len = s.len - 1 := by omega
    rw [this]

/-- The state as the loader of `C94` has it. -/
def Sh.load (s : Sh) : Load := ⟨s.tokens, s.pending, s.eosed⟩

/-- What the deletions in hand will have done. -/
def delFinish (w : Load) (ids : List Bytes) : Load := if w.eosed then { w with tokens := ids.foldl removeDeleted w.tokens } else { w with pending := w.pending ++ ids }

/-- What the receiver will have made of the state when it rests again, left alone. -/
def rFinish (s : Sh) : RPc → Load
  | .idle => s.load
  | .check id del => loadStep s.load (.token id del)
  | .app id del => delFinish { s.load with tokens := s.tokens ++ [id] } del
  | .store id del _ => delFinish { s.load with tokens := s.tokens ++ [id] } del
  | .flag ids => delFinish s.load ids
  | .pend ids => { s.load with pending := s.pending ++ ids }
  | .pendW id ids _ => { s.load with pending := s.pending ++ id :: ids }
  | .rem m => { s.load with tokens := remFinish s.tokens m }

/-- Invariant used in the proofs; models no code. -/
def rOk (s : Sh) : RPc → Prop
  | .store _ _ n => n = s.len
  | .pendW _ _ snap => snap = s.pending
  | .rem m => remOk s m
  | _ => True

theorem rStep_alone {s s' : Sh} {r r' : RPc} (hc : s.crashed = false) (hl : s.len ≤ s.cells.length) (hok : rOk s r) (e : rStep s r = some (s', r')) :
    rFinish s' r' = rFinish s r ∧ rOk s' r' ∧ s'.crashed = false ∧ s'.len ≤ s'.cells.length := by
  cases r with
  | idle => simp [rStep] at e
  | check id del =>
    have key : rFinish s (.check id del) = delFinish { s.load with tokens := if s.tokens.contains id then s.tokens else s.tokens ++ [id] } del := rfl
    simp only [rStep] at e
    split at e
    · rename_i hx
      simp only [Option.some.injEq, Prod.mk.injEq] at e
      obtain ⟨rfl, rfl⟩ := e
      refine ⟨?_, trivial, hc, hl⟩
      rw [key, if_pos hx]
      rfl
    · rename_i hx
      simp only [Option.some.injEq, Prod.mk.injEq] at e
      obtain ⟨rfl, rfl⟩ := e
      refine ⟨?_, trivial, hc, hl⟩
      rw [key, if_neg hx]
      rfl
  | app id del =>
    simp only [rStep, Option.some.injEq, Prod.mk.injEq] at e
    obtain ⟨rfl, rfl⟩ := e
    exact ⟨rfl, rfl, hc, hl⟩
  | store id del n =>
    simp only [rStep, Option.some.injEq, Prod.mk.injEq] at e
    obtain ⟨rfl, rfl⟩ := e
    simp only [rOk] at hok
    subst hok
    refine ⟨?_, trivial, hc, by simp only [List.length_append, List.length_take, List.length_cons, List.length_drop]; omega⟩
    simp only [rFinish, Sh.load, Sh.tokens]
    congr 2
    rw [List.take_append, List.take_of_length_le (by simp only [List.length_take]; omega)]
    have h1 : s.len + 1 - (s.cells.take s.len).length = 1 := by simp only [List.length_take]; omega
    rw [h1]
    rfl
  | flag ids =>
    simp only [rStep] at e
    split at e
    · rename_i hx
      simp only [Option.some.injEq, Prod.mk.injEq] at e
      obtain ⟨rfl, rfl⟩ := e
      refine ⟨?_, trivial, hc, hl⟩
      simp only [rFinish, Sh.load, delFinish, hx, if_true, remFinish]
    · rename_i hx
      simp only [Option.some.injEq, Prod.mk.injEq] at e
      obtain ⟨rfl, rfl⟩ := e
      refine ⟨?_, trivial, hc, hl⟩
      simp only [rFinish, Sh.load, delFinish, hx]
      rfl
  | pend ids =>
    cases ids with
    | nil =>
      simp only [rStep, Option.some.injEq, Prod.mk.injEq] at e
      obtain ⟨rfl, rfl⟩ := e
      exact ⟨by simp [rFinish, Sh.load], trivial, hc, hl⟩
    | cons a l =>
      simp only [rStep, Option.some.injEq, Prod.mk.injEq] at e
      obtain ⟨rfl, rfl⟩ := e
      exact ⟨rfl, rfl, hc, hl⟩
  | pendW id ids snap =>
    simp only [rOk] at hok
    subst hok
    simp only [rStep, Option.some.injEq, Prod.mk.injEq] at e
    obtain ⟨rfl, rfl⟩ := e
    exact ⟨by simp [rFinish, Sh.load, Sh.tokens], trivial, hc, hl⟩
  | rem m =>
    simp only [rOk] at hok
    simp only [rStep] at e
    cases e2 : remStep s m with
    | none =>
      rw [e2] at e
      simp only [Option.some.injEq, Prod.mk.injEq] at e
      obtain ⟨rfl, rfl⟩ := e
      refine ⟨?_, trivial, hc, hl⟩
      cases m with
      | next l =>
        cases l with
        | nil => rfl
        | cons a l => simp [remStep] at e2
      | scan id t l =>
        cases t with
        | zero => simp [remStep] at e2
        | succ t => simp only [remStep] at e2; split at e2 <;> first | (cases e2) | (split at e2 <;> cases e2)
      | hit id t l => simp only [remStep] at e2; split at e2 <;> cases e2
      | cut id t l => simp only [remStep] at e2; split at e2 <;> cases e2
    | some q =>
      obtain ⟨s1, m1⟩ := q
      rw [e2] at e
      simp only [Option.some.injEq, Prod.mk.injEq] at e
      obtain ⟨rfl, rfl⟩ := e
      obtain ⟨g1, g2, g3, g4, g5, g6⟩ := remStep_alone hc hl hok e2
      refine ⟨?_, g2, g3, g4⟩
      simp only [rFinish, Sh.load, g1, g5, g6]

/-- What the other goroutine will have made of the state when it is done, left alone. -/
def aFinish (s : Sh) : APc → Load
  | .waiting => loadStep s.load .eose
  | .flagged => ⟨s.pending.foldl removeDeleted s.tokens, [], true⟩
  | .rem m => ⟨remFinish s.tokens m, [], true⟩
  | .clear => ⟨s.tokens, [], true⟩
  | .done => ⟨s.tokens, [], true⟩

/-- Invariant used in the proofs; models no code. -/
def aOk (s : Sh) : APc → Prop
  | .waiting => True
  | .flagged => s.eosed = true
  | .rem m => remOk s m ∧ s.eosed = true
  | .clear => s.eosed = true
  | .done => s.eosed = true ∧ s.pending = []

theorem aStep_alone {s s' : Sh} {a a' : APc} (hc : s.crashed = false) (hl : s.len ≤ s.cells.length) (hok : aOk s a) (e : aStep s a = some (s', a')) :
    aFinish s' a' = aFinish s a ∧ aOk s' a' ∧ s'.crashed = false ∧ s'.len ≤ s'.cells.length := by
  cases a with
  | waiting => simp only [aStep, Option.some.injEq, Prod.mk.injEq] at e; obtain ⟨rfl, rfl⟩ := e; exact ⟨rfl, rfl, hc, hl⟩
  | flagged => simp only [aStep, Option.some.injEq, Prod.mk.injEq] at e; obtain ⟨rfl, rfl⟩ := e; exact ⟨rfl, ⟨trivial, hok⟩, hc, hl⟩
  | clear => simp only [aStep, Option.some.injEq, Prod.mk.injEq] at e; obtain ⟨rfl, rfl⟩ := e; exact ⟨rfl, ⟨hok, rfl⟩, hc, hl⟩
  | done => simp [aStep] at e
  | rem m =>
    obtain ⟨hok, he⟩ := hok
    simp only [aStep] at e
    cases e2 : remStep s m with
    | none =>
      rw [e2] at e
      simp only [Option.some.injEq, Prod.mk.injEq] at e
      obtain ⟨rfl, rfl⟩ := e
      refine ⟨?_, he, hc, hl⟩
      cases m with
      | next l =>
        cases l with
        | nil => rfl
        | cons a l => simp [remStep] at e2
      | scan id t l =>
        cases t with
        | zero => simp [remStep] at e2
        | succ t => simp only [remStep] at e2; split at e2 <;> first | (cases e2) | (split at e2 <;> cases e2)
      | hit id t l => simp only [remStep] at e2; split at e2 <;> cases e2
      | cut id t l => simp only [remStep] at e2; split at e2 <;> cases e2
    | some q =>
      obtain ⟨s1, m1⟩ := q
      rw [e2] at e
      simp only [Option.some.injEq, Prod.mk.injEq] at e
      obtain ⟨rfl, rfl⟩ := e
      obtain ⟨g1, g2, g3, g4, g5, g6⟩ := remStep_alone hc hl hok e2
      refine ⟨?_, ⟨g2, g6 ▸ he⟩, g3, g4⟩
      simp only [aFinish, g1]

/-- The receiver alone, from a state in which it rests. -/
theorem receiver_alone : ∀ (acts : List Act) (st st' : St) (w : Load), Act.a ∉ acts → st.sh.crashed = false → st.sh.len ≤ st.sh.cells.length → rOk st.sh st.r →
    rFinish st.sh st.r = w → run st acts = some st' →
    rFinish st'.sh st'.r = ((recvs acts).map Msg.op).foldl loadStep w ∧ rOk st'.sh st'.r ∧ st'.sh.crashed = false ∧ st'.sh.len ≤ st'.sh.cells.length ∧ st'.a = st.a
  | [], st, st', w, _, hc, hl, hok, hw, e => by
    simp only [run, Option.some.injEq] at e
    subst e
    exact ⟨by simpa [recvs] using hw, hok, hc, hl, rfl⟩
  | .a :: xs, st, st', w, hn, _, _, _, _, _ => absurd (by simp) hn
  | .r :: xs, st, st', w, hn, hc, hl, hok, hw, e => by
    simp only [run, step, hc, Bool.false_eq_true, if_false] at e
    cases e2 : rStep st.sh st.r with
    | none => rw [e2] at e; simp at e
    | some q =>
      obtain ⟨s1, r1⟩ := q
      rw [e2] at e
      simp only [Option.map_some, Option.bind_some] at e
      obtain ⟨g1, g2, g3, g4⟩ := rStep_alone hc hl hok e2
      exact receiver_alone xs { st with sh := s1, r := r1 } st' w (fun h => hn (List.mem_cons_of_mem _ h)) g3 g4 g2 (g1.trans hw) e
  | .recv m :: xs, st, st', w, hn, hc, hl, hok, hw, e => by
    simp only [run, step, hc, Bool.false_eq_true, if_false] at e
    split at e
    · rename_i hi
      rw [hi] at hw
      simp only [Option.bind_some] at e
      have hw' : w = st.sh.load := hw.symm
      have := receiver_alone xs { st with r := start m } st' (loadStep w m.op) (fun h => hn (List.mem_cons_of_mem _ h)) hc hl (by cases m <;> trivial)
        (by cases m with
          | token id del => simp only [rFinish, start, Msg.op, hw']
          | deletion ids => simp only [rFinish, start, Msg.op, hw', delFinish, loadStep]) e
      simpa [recvs] using this
    · simp at e

/-- The other goroutine alone. -/
theorem other_alone : ∀ (n : Nat) (st st' : St) (w : Load), st.sh.crashed = false → st.sh.len ≤ st.sh.cells.length → aOk st.sh st.a → aFinish st.sh st.a = w →
    run st (List.replicate n .a) = some st' → aFinish st'.sh st'.a = w ∧ aOk st'.sh st'.a ∧ st'.sh.crashed = false ∧ st'.sh.len ≤ st'.sh.cells.length ∧ st'.r = st.r
  | 0, st, st', w, hc, hl, hok, hw, e => by
    simp only [List.replicate, run, Option.some.injEq] at e
    subst e
    exact ⟨hw, hok, hc, hl, rfl⟩
  | n + 1, st, st', w, hc, hl, hok, hw, e => by
    simp only [List.replicate_succ, run, step, hc, Bool.false_eq_true, if_false] at e
    cases e2 : aStep st.sh st.a with
    | none => rw [e2] at e; simp at e
    | some q =>
      obtain ⟨s1, a1⟩ := q
      rw [e2] at e
      simp only [Option.map_some, Option.bind_some] at e
      obtain ⟨g1, g2, g3, g4⟩ := aStep_alone hc hl hok e2
      exact other_alone n { st with sh := s1, a := a1 } st' w g3 g4 g2 (g1.trans hw) e

/-- **C170 (when stored events end while the receiver rests).** If the goroutine of the end of stored events runs from its start to its end while no event is being handled, nothing panics and the
wallet is the one of `C94`: the events one after the other, with the end of stored events between them. Missing for the full property: every other interleaving, where it is false
(`C170_deletion_lost`, `C170_token_lost_and_doubled`, `C170_crash`). -/
theorem C170_quiet_partial (pre post : List Act) (n : Nat) (s1 s2 st : St) (hpre : Act.a ∉ pre) (hpost : Act.a ∉ post) (e1 : run init pre = some s1) (hi : s1.r = .idle)
    (e2 : run s1 (List.replicate n .a) = some s2) (hd : s2.a = .done) (e3 : run s2 post = some st) (hi' : st.r = .idle) :
    st.sh.crashed = false ∧ st.sh.tokens = (((recvs pre).map Msg.op ++ [LoadOp.eose] ++ (recvs post).map Msg.op).foldl loadStep emptyLoad).tokens := by
  obtain ⟨a1, -, a3, a4, a5⟩ := receiver_alone pre init s1 emptyLoad hpre rfl (by simp [init]) trivial rfl e1
  rw [hi] at a1
  have ha : s1.a = .waiting := a5
  obtain ⟨b1, b2, b3, b4, b5⟩ := other_alone n s1 s2 _ a3 a4 (by rw [ha]; trivial) rfl e2
  rw [hd] at b1 b2
  rw [ha] at b1
  simp only [aFinish] at b1
  have hb : s2.sh.load = loadStep s1.sh.load .eose := by
    rw [← b1]
    simp only [Sh.load, b2.1, b2.2]
  obtain ⟨c1, -, c3, -, -⟩ := receiver_alone post s2 st s2.sh.load hpost b3 b4 (by rw [b5, hi]; trivial) (by rw [b5, hi]; rfl) e3
  rw [hi'] at c1
  refine ⟨c3, ?_⟩
  have : st.sh.tokens = st.sh.load.tokens := rfl
  rw [this]
  simp only [rFinish] at a1 c1
  rw [c1, hb, a1, List.foldl_append, List.foldl_append]
  rfl

/-- **C170 (the stored events, while the receiver rests).** So the wallet then holds exactly the tokens received and not deleted. -/
theorem C170_stored_partial (pre : List Act) (n : Nat) (s1 st : St) (hpre : Act.a ∉ pre) (e1 : run init pre = some s1) (hi : s1.r = .idle)
    (e2 : run s1 (List.replicate n .a) = some st) (hd : st.a = .done) (y : Bytes) :
    y ∈ st.sh.tokens ↔ (∃ m ∈ recvs pre, y ∈ m.received) ∧ ∀ m ∈ recvs pre, y ∉ m.deleted := by
  obtain ⟨a1, -, a3, a4, a5⟩ := receiver_alone pre init s1 emptyLoad hpre rfl (by simp [init]) trivial rfl e1
  have ha : s1.a = .waiting := a5
  obtain ⟨-, -, -, -, b5⟩ := other_alone n s1 st _ a3 a4 (by rw [ha]; trivial) rfl e2
  have h := (C170_quiet_partial pre [] n s1 st st hpre (by simp) e1 hi e2 hd rfl (b5.trans hi)).2
  have hne : LoadOp.eose ∉ (recvs pre).map Msg.op := by
    intro hm
    obtain ⟨m, -, hm⟩ := List.mem_map.1 hm
    cases m <;> simp [Msg.op] at hm
  simp only [recvs, List.map_nil, List.append_nil] at h
  rw [h, C94_stored_events _ hne]
  have r1 : ∀ m : Msg, m.op.received = m.received := by intro m; cases m <;> rfl
  have r2 : ∀ m : Msg, m.op.deleted = m.deleted := by intro m; cases m <;> rfl
  have q1 : ((recvs pre).map Msg.op).flatMap LoadOp.received = (recvs pre).flatMap Msg.received := by simp only [List.flatMap_map, r1]
  have q2 : ((recvs pre).map Msg.op).flatMap LoadOp.deleted = (recvs pre).flatMap Msg.deleted := by simp only [List.flatMap_map, r2]
  rw [q1, q2]
  simp only [List.mem_flatMap, not_exists, not_and]

/-- Two tokens, one of them deleted, and the end of stored events. -/
def exPre : List Act := [.recv (.token (b! "a") []), .r, .r, .r, .r, .r, .recv (.token (b! "b") []), .r, .r, .r, .r, .r, .recv (.deletion [b! "a"]), .r, .r, .r, .r]

example : ∃ s1 st, run init exPre = some s1 ∧ s1.r = .idle ∧ Act.a ∉ exPre ∧ run s1 (List.replicate 10 .a) = some st ∧ st.a = .done ∧ st.sh.tokens = [b! "b"] := by
  refine ⟨(run init exPre).get (by decide +kernel), (run init (exPre ++ List.replicate 10 .a)).get (by decide +kernel), ?_⟩
  decide +kernel

/-! ## Every other interleaving -/

/-- **C170 (a deletion is lost).** The receiver sees that stored events have not ended, then the other goroutine runs, then the receiver notes the deletion: nobody looks at it again. Both goroutines
are done, and the deleted token is in the wallet. -/
theorem C170_deletion_lost : ∃ acts st, run init acts = some st ∧ st.r = .idle ∧ st.a = .done ∧ recvs acts = [.token (b! "a") [], .deletion [b! "a"]] ∧
    st.sh.tokens = [b! "a"] ∧ st.sh.pending = [b! "a"] := by
  refine ⟨[.recv (.token (b! "a") []), .r, .r, .r, .r, .r, .recv (.deletion [b! "a"]), .r, .a, .a, .a, .a, .r, .r, .r],
    (run init [.recv (.token (b! "a") []), .r, .r, .r, .r, .r, .recv (.deletion [b! "a"]), .r, .a, .a, .a, .a, .r, .r, .r]).get (by decide +kernel), ?_⟩
  decide +kernel

/-- **C170 (a token is lost and another counts twice).** While the other goroutine removes a deleted token, the receiver appends a new one between the two assignments of `removeDeletedToken`: the new
token is cut off, and the one that was moved into the gap is there twice, so the wallet's balance counts it twice. Nobody deleted either of them. -/
theorem C170_token_lost_and_doubled : ∃ acts st, run init acts = some st ∧ st.r = .idle ∧ st.a = .done ∧
    recvs acts = [.token (b! "a") [], .token (b! "b") [], .deletion [b! "a"], .token (b! "c") []] ∧ st.sh.tokens = [b! "b", b! "b"] := by
  refine ⟨exPre ++ [.a, .a, .a, .a, .a, .a, .recv (.token (b! "c") []), .r, .r, .r, .a, .r, .r, .a, .a, .a],
    (run init (exPre ++ [.a, .a, .a, .a, .a, .a, .recv (.token (b! "c") []), .r, .r, .r, .a, .r, .r, .a, .a, .a])).get (by decide +kernel), ?_⟩
  decide +kernel

/-- **C170 (loading panics).** Once `eosed` is set the receiver removes tokens too. If it shortens the wallet while the other goroutine goes through it, the latter's index is out of range. -/
theorem C170_crash : ∃ acts st, run init acts = some st ∧ recvs acts = [.token (b! "a") [], .token (b! "b") [], .deletion [b! "a"], .deletion [b! "b"]] ∧ st.sh.crashed = true := by
  refine ⟨exPre ++ [.a, .a, .a, .recv (.deletion [b! "b"]), .r, .r, .r, .r, .r, .a],
    (run init (exPre ++ [.a, .a, .a, .recv (.deletion [b! "b"]), .r, .r, .r, .r, .r, .a])).get (by decide +kernel), ?_⟩
  decide +kernel

/-! ## Without deletions -/

/-- The tokens a wallet should have if nothing was deleted: each id once, in the order of first arrival. -/
def once : List Msg → List Bytes → List Bytes
  | [], l => l
  | .token id _ :: ms, l => once ms (if l.contains id then l else l ++ [id])
  | .deletion _ :: ms, l => once ms l

theorem once_append (l : List Bytes) : ∀ (xs ys : List Msg), once (xs ++ ys) l = once ys (once xs l) := by
  intro xs
  induction xs generalizing l with
  | nil => intro ys; rfl
  | cons x xs ih => intro ys; cases x <;> simp [once, ih]

/-- Invariant used in the proofs; models no code. -/
def NoDel (hist : List Msg) : Prop := ∀ m ∈ hist, m.deleted = []

/-- What the receiver will have made of the tokens, if nothing is deleted. -/
def tFinish (s : Sh) : RPc → List Bytes
  | .check id _ => if s.tokens.contains id then s.tokens else s.tokens ++ [id]
  | .app id _ => s.tokens ++ [id]
  | .store id _ _ => s.tokens ++ [id]
  | _ => s.tokens

/-- Invariant used in the proofs; models no code. -/
def NdInv (hist : List Msg) (st : St) : Prop :=
  NoDel hist → st.sh.crashed = false ∧ st.sh.len ≤ st.sh.cells.length ∧ st.sh.pending = [] ∧ tFinish st.sh st.r = once hist [] ∧
    (match st.r with
      | .check _ del => del = []
      | .app _ del => del = []
      | .store _ del n => del = [] ∧ n = st.sh.len
      | .flag ids => ids = []
      | .pend ids => ids = []
      | .pendW _ _ _ => False
      | .rem m => m = .next []
      | .idle => True) ∧
    (match st.a with
      | .rem m => m = .next []
      | _ => True)

theorem nd_r (hist : List Msg) (st st' : St) (h : NdInv hist st) (e : step st .r = some st') : NdInv hist st' := by
  intro hn
  obtain ⟨h1, h2, h3, h4, h5, h6⟩ := h hn
  simp only [step, h1, Bool.false_eq_true, if_false] at e
  cases hr : st.r with
  | idle => simp [hr, rStep] at e
  | check id del =>
    rw [hr] at h4 h5
    simp only [hr, rStep] at e
    split at e
    · rename_i hx
      simp only [Option.map_some, Option.some.injEq] at e
      rw [← e]
      refine ⟨h1, h2, h3, ?_, h5, h6⟩
      simp only [tFinish] at h4 ⊢
      rw [if_pos hx] at h4
      exact h4
    · rename_i hx
      simp only [Option.map_some, Option.some.injEq] at e
      rw [← e]
      refine ⟨h1, h2, h3, ?_, h5, h6⟩
      simp only [tFinish] at h4 ⊢
      rw [if_neg hx] at h4
      exact h4
  | app id del =>
    rw [hr] at h4 h5
    simp only [hr, rStep, Option.map_some, Option.some.injEq] at e
    rw [← e]
    exact ⟨h1, h2, h3, h4, ⟨h5, rfl⟩, h6⟩
  | store id del n =>
    rw [hr] at h4 h5
    obtain ⟨h5, hn'⟩ := h5
    simp only [hr, rStep, Option.map_some, Option.some.injEq] at e
    rw [← e]
    refine ⟨h1, by simp only [List.length_append, List.length_take, List.length_cons, List.length_drop]; omega, h3, ?_, h5, h6⟩
    rw [← h4]
    simp only [tFinish, Sh.tokens]
    rw [hn', List.take_append, List.take_of_length_le (by simp only [List.length_take]; omega)]
    have hk : st.sh.len + 1 - (st.sh.cells.take st.sh.len).length = 1 := by simp only [List.length_take]; omega
    rw [hk]
    rfl
  | flag ids =>
    rw [hr] at h4 h5
    simp only [hr, rStep] at e
    split at e
    · simp only [Option.map_some, Option.some.injEq] at e
      rw [← e]
      exact ⟨h1, h2, h3, h4, by rw [h5], h6⟩
    · simp only [Option.map_some, Option.some.injEq] at e
      rw [← e]
      exact ⟨h1, h2, h3, h4, h5, h6⟩
  | pend ids =>
    rw [hr] at h4 h5
    simp only at h5
    subst h5
    simp only [hr, rStep, Option.map_some, Option.some.injEq] at e
    rw [← e]
    exact ⟨h1, h2, h3, h4, trivial, h6⟩
  | pendW id ids snap => rw [hr] at h5; exact absurd h5 (by simp)
  | rem m =>
    rw [hr] at h4 h5
    simp only at h5
    subst h5
    simp only [hr, rStep, remStep, Option.map_some, Option.some.injEq] at e
    rw [← e]
    exact ⟨h1, h2, h3, h4, trivial, h6⟩

theorem nd_a (hist : List Msg) (st st' : St) (h : NdInv hist st) (e : step st .a = some st') : NdInv hist st' := by
  intro hn
  obtain ⟨h1, h2, h3, h4, h5, h6⟩ := h hn
  simp only [step, h1, Bool.false_eq_true, if_false] at e
  cases ha : st.a with
  | waiting =>
    simp only [ha, aStep, Option.map_some, Option.some.injEq] at e
    rw [← e]
    exact ⟨h1, h2, h3, by rw [← h4]; cases st.r <;> rfl, h5, trivial⟩
  | flagged =>
    simp only [ha, aStep, Option.map_some, Option.some.injEq] at e
    rw [← e]
    exact ⟨h1, h2, h3, h4, h5, by simp only [h3]⟩
  | clear =>
    simp only [ha, aStep, Option.map_some, Option.some.injEq] at e
    rw [← e]
    exact ⟨h1, h2, rfl, by rw [← h4]; cases st.r <;> rfl, h5, trivial⟩
  | done => simp [ha, aStep] at e
  | rem m =>
    rw [ha] at h6
    simp only at h6
    subst h6
    simp only [ha, aStep, remStep, Option.map_some, Option.some.injEq] at e
    rw [← e]
    exact ⟨h1, h2, h3, h4, h5, trivial⟩

theorem nd_recv (hist : List Msg) (st st' : St) (m : Msg) (h : NdInv hist st) (e : step st (.recv m) = some st') : NdInv (hist ++ [m]) st' := by
  intro hn
  obtain ⟨h1, h2, h3, h4, -, h6⟩ := h (fun x hx => hn x (List.mem_append_left _ hx))
  have hm : m.deleted = [] := hn m (by simp)
  simp only [step, h1, Bool.false_eq_true, if_false] at e
  split at e
  · rename_i hi
    rw [hi] at h4
    simp only [tFinish] at h4
    simp only [Option.some.injEq] at e
    rw [← e]
    cases m with
    | token id del => exact ⟨h1, h2, h3, by simp only [tFinish, start, once_append, once, h4], hm, h6⟩
    | deletion ids => exact ⟨h1, h2, h3, by simp only [tFinish, start, once_append, once, h4], hm, h6⟩
  · cases e

/-- **C170 (without deletions).** If no event deletes a token then, whatever the interleaving, nothing panics, and whenever the receiver rests the wallet holds every token received, once, in order of
arrival. -/
theorem C170_without_deletions (acts : List Act) (st : St) (e : run init acts = some st) (hn : ∀ m ∈ recvs acts, m.deleted = []) :
    st.sh.crashed = false ∧ (st.r = .idle → st.sh.tokens = once (recvs acts) []) := by
  have h := run_inv NdInv nd_r nd_a nd_recv acts [] init st (fun _ => ⟨rfl, by simp [init], rfl, rfl, trivial, trivial⟩) e
  obtain ⟨h1, -, -, h4, -, -⟩ := h (by simpa [NoDel] using hn)
  refine ⟨h1, fun hi => ?_⟩
  rw [hi] at h4
  simpa [tFinish] using h4

example : ∃ st, run init [.recv (.token (b! "a") []), .r, .a, .r, .r, .a, .r, .r, .a, .recv (.token (b! "a") []), .r, .a, .r, .r] = some st ∧ st.r = .idle ∧ st.a = .done ∧
    st.sh.tokens = [b! "a"] ∧ st.sh.eosed = true := by
  refine ⟨(run init [.recv (.token (b! "a") []), .r, .a, .r, .r, .a, .r, .r, .a, .recv (.token (b! "a") []), .r, .a, .r, .r]).get (by decide +kernel), ?_⟩
  decide +kernel

end GoNostr.Nip60.Race
