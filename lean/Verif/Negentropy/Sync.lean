import Verif.Base.Bytes
/-!
# C106, C107: `NegentropySync`

Two machines. The first has the reader of the connection, which pushes the ids found by `Reconcile` into the channels `Haves` and
`HaveNots` (capacity 64 each), and the goroutines that drain them. The second has one of those goroutines per direction, the
goroutines it starts to transfer 50 ids each, and the recycled id lists.

Simplifications: the order of the ids `Reconcile` finds is arbitrary, and they are given beforehand; transferring a batch is one
action that notes which ids were requested; errors of the relay or of the store are not modelled.
-/

set_option autoImplicit false

namespace GoNostr.NegSync

/-! ## C106: the channels -/

/-- nip77.go:13-28 `Direction`. -/
inductive Direction where
  | up | down | both
  deriving DecidableEq, Repr

/-- nip77.go:97-103: whether a goroutine drains `Haves`. -/
def Direction.drainsHaves : Direction → Bool
  | .up => true
  | .down => false
  | .both => true

/-- nip77.go:97-103: whether a goroutine drains `HaveNots`. -/
def Direction.drainsHaveNots : Direction → Bool
  | .up => false
  | .down => true
  | .both => true

variable {Id : Type}

/-- `todo`: what `Reconcile` still finds (`true`: we have it, the relay does not); the contents of the channels; whether they are
closed; what the draining goroutines got; whether `NegentropySync` returned. -/
structure Chan (Id : Type) where
  todo : List (Bool × Id)
  haves : List Id
  haveNots : List Id
  closed : Bool
  gotHaves : List Id
  gotHaveNots : List Id
  returned : Bool
  deriving DecidableEq

/-- The state at the start: what `Reconcile` will find is still to be sent. -/
def Chan.start (found : List (Bool × Id)) : Chan Id := ⟨found, [], [], false, [], [], false⟩

/-- negentropy.go:42-43: `buckets*4`. -/
def capacity : Nat := 64

/-- The atomic actions of the machine; its step function says which lines each of them is. -/
inductive ChanLab where
  | push | takeHave | takeHaveNot | close | ret
  deriving DecidableEq, Repr

/-- The send of `Reconcile` (negentropy.go:180, 189), the receive of the two goroutines (nip77.go:128), the two `close`
(negentropy.go:79-80), and the return when all goroutines are done (nip77.go:146-149). -/
def Chan.step (d : Direction) (st : Chan Id) : ChanLab → Option (Chan Id)
  | .push => match st.todo with
    | [] => none
    | (true, x) :: rest => if st.haves.length < capacity then some { st with todo := rest, haves := st.haves ++ [x] } else none
    | (false, x) :: rest => if st.haveNots.length < capacity then some { st with todo := rest, haveNots := st.haveNots ++ [x] } else none
  | .takeHave => if d.drainsHaves then (match st.haves with
      | [] => none
      | x :: rest => some { st with haves := rest, gotHaves := st.gotHaves ++ [x] })
    else none
  | .takeHaveNot => if d.drainsHaveNots then (match st.haveNots with
      | [] => none
      | x :: rest => some { st with haveNots := rest, gotHaveNots := st.gotHaveNots ++ [x] })
    else none
  | .close => if st.todo = [] ∧ st.closed = false then some { st with closed := true } else none
  | .ret => if st.closed ∧ (d.drainsHaves → st.haves = []) ∧ (d.drainsHaveNots → st.haveNots = []) ∧ st.returned = false then some { st with returned := true } else none

/-- A schedule: the actions one after the other. -/
def Chan.run (d : Direction) (st : Chan Id) (ls : List ChanLab) : Option (Chan Id) := ls.foldlM (Chan.step d) st

/-! ### Specification -/

/-- What we have and the relay has not; what the relay has and we have not. -/
def ours (found : List (Bool × Id)) : List Id := (found.filter (·.1)).map (·.2)
/-- Specification: the ids of one direction, in order. -/
def theirs (found : List (Bool × Id)) : List Id := (found.filter (fun x => !x.1)).map (·.2)

/-- What nobody asked for in this direction fits into the channel nobody drains. -/
def Fits (d : Direction) (found : List (Bool × Id)) : Prop :=
  (d.drainsHaves = false → (ours found).length ≤ 64) ∧ (d.drainsHaveNots = false → (theirs found).length ≤ 64)

/-! ### Proofs -/

/-- Invariant used in the proofs; models no code. -/
structure ChanInv (d : Direction) (found : List (Bool × Id)) (st : Chan Id) : Prop where
  h1 : st.gotHaves ++ (st.haves ++ ours st.todo) = ours found
  h2 : st.gotHaveNots ++ (st.haveNots ++ theirs st.todo) = theirs found
  n1 : d.drainsHaves = false → st.gotHaves = []
  n2 : d.drainsHaveNots = false → st.gotHaveNots = []
  c1 : st.haves.length ≤ 64
  c2 : st.haveNots.length ≤ 64
  cl : st.closed = true → st.todo = []
  rt : st.returned = true → st.closed = true ∧ (d.drainsHaves = true → st.haves = []) ∧ (d.drainsHaveNots = true → st.haveNots = [])

/-- Auxiliary function of the proofs; models no code. -/
def Chan.left (st : Chan Id) : Nat := 2 * st.todo.length + st.haves.length + st.haveNots.length + (if st.closed then 0 else 1) + (if st.returned then 0 else 1)

theorem ChanInv.step {d : Direction} {found : List (Bool × Id)} {st st' : Chan Id} {l : ChanLab} (h : ChanInv d found st) (hs : st.step d l = some st') : ChanInv d found st' ∧ st'.left < st.left := by
  obtain ⟨h1, h2, n1, n2, c1, c2, cl, rt⟩ := h
  cases l <;> simp only [Chan.step] at hs <;> (repeat' split at hs) <;> (try simp only [reduceCtorEq, Option.some.injEq] at hs) <;> (try subst hs) <;>
    (refine ⟨⟨?_, ?_, ?_, ?_, ?_, ?_, ?_, ?_⟩, ?_⟩) <;>
    simp_all [ours, theirs, capacity, Chan.left] <;> (try omega) <;> grind

theorem chan_run {d : Direction} {found : List (Bool × Id)} {ls : List ChanLab} {st st' : Chan Id} (h : ChanInv d found st) (hr : st.run d ls = some st') : ChanInv d found st' ∧ st'.left + ls.length ≤ st.left := by
  induction ls generalizing st with
  | nil =>
    simp only [Chan.run, List.foldlM_nil, pure, Option.some.injEq] at hr
    subst hr
    exact ⟨h, by simp⟩
  | cons l ls ih =>
    simp only [Chan.run, List.foldlM_cons, Option.bind_eq_bind, Option.bind_eq_some_iff] at hr
    obtain ⟨st1, h1, h2⟩ := hr
    obtain ⟨i1, m1⟩ := h.step h1
    obtain ⟨i2, m2⟩ := ih i1 h2
    exact ⟨i2, by simp; omega⟩

theorem chan_start (d : Direction) (found : List (Bool × Id)) : ChanInv d found (Chan.start found) :=
  ⟨by simp [Chan.start], by simp [Chan.start], fun _ => rfl, fun _ => rfl, by simp [Chan.start], by simp [Chan.start], by simp [Chan.start], by simp [Chan.start]⟩

/-- Part of C106: if what nobody asked for fits into the channel (always so when syncing in both directions), the sync ends, whatever the order of the actions: no run has more than `2n + 2` actions, and
a run that cannot go on has returned with every id of the directions asked for. Missing: the other syncs, see `C106_hangs`. -/
theorem C106_ends_partial {d : Direction} {found : List (Bool × Id)} (hf : Fits d found) {ls : List ChanLab} {st : Chan Id} (hr : (Chan.start found).run d ls = some st) :
    ls.length ≤ 2 * found.length + 2 ∧ ((∀ l, st.step d l = none) → st.returned = true ∧ (d.drainsHaves = true → st.gotHaves = ours found) ∧
      (d.drainsHaveNots = true → st.gotHaveNots = theirs found)) := by
  obtain ⟨⟨h1, h2, n1, n2, c1, c2, cl, rt⟩, hm⟩ := chan_run (chan_start d found) hr
  refine ⟨by simp only [Chan.left, Chan.start] at hm; simp at hm; omega, fun hstuck => ?_⟩
  have e1 : d.drainsHaves = true → st.haves = [] := by
    intro hd
    have := hstuck .takeHave
    simp only [Chan.step, hd, if_true] at this
    split at this
    · assumption
    · cases this
  have e2 : d.drainsHaveNots = true → st.haveNots = [] := by
    intro hd
    have := hstuck .takeHaveNot
    simp only [Chan.step, hd, if_true] at this
    split at this
    · assumption
    · cases this
  have htodo : st.todo = [] := by
    cases ht : st.todo with
    | nil => rfl
    | cons a rest =>
      exfalso
      have hp := hstuck .push
      obtain ⟨b, x⟩ := a
      simp only [Chan.step, ht] at hp
      cases b with
      | true =>
        have hlen : ¬ st.haves.length < capacity := by intro h; simp [h] at hp
        cases hd : d.drainsHaves with
        | true => exact hlen (by rw [e1 hd]; exact Nat.zero_lt_succ _)
        | false =>
          have hl := congrArg List.length h1
          have := hf.1 hd
          simp [n1 hd, ours, ht] at hl
          simp only [ours, List.length_map] at this
          unfold capacity at hlen
          omega
      | false =>
        have hlen : ¬ st.haveNots.length < capacity := by intro h; simp [h] at hp
        cases hd : d.drainsHaveNots with
        | true => exact hlen (by rw [e2 hd]; exact Nat.zero_lt_succ _)
        | false =>
          have hl := congrArg List.length h2
          have := hf.2 hd
          simp [n2 hd, theirs, ht] at hl
          simp only [theirs, List.length_map] at this
          unfold capacity at hlen
          omega
  have hclosed : st.closed = true := by
    have := hstuck .close
    simp only [Chan.step, htodo, true_and] at this
    split at this
    · cases this
    · simpa using ‹¬ st.closed = false›
  refine ⟨?_, ?_, ?_⟩
  · have := hstuck .ret
    simp only [Chan.step] at this
    split at this
    · cases this
    · next hn =>
      cases hr' : st.returned with
      | true => rfl
      | false => exact absurd ⟨hclosed, e1, e2, hr'⟩ hn
  · intro hd
    rw [← h1, e1 hd, htodo]
    simp [ours]
  · intro hd
    rw [← h2, e2 hd, htodo]
    simp [theirs]

/-- C106 is false: a sync in one direction, with more than 64 ids found in the other, never returns, in no run. -/
theorem C106_hangs {d : Direction} {found : List (Bool × Id)} (hf : ¬ Fits d found) {ls : List ChanLab} {st : Chan Id} (hr : (Chan.start found).run d ls = some st) : st.returned = false := by
  obtain ⟨⟨h1, h2, n1, n2, c1, c2, cl, rt⟩, -⟩ := chan_run (chan_start d found) hr
  cases hret : st.returned with
  | false => rfl
  | true =>
    exfalso
    obtain ⟨hc, -, -⟩ := rt hret
    have htodo := cl hc
    refine hf ⟨fun hd => ?_, fun hd => ?_⟩
    · rw [← h1, n1 hd, htodo]
      simpa [ours] using c1
    · rw [← h2, n2 hd, htodo]
      simpa [theirs] using c2

/-- Syncing in both directions always fits. -/
theorem C106_both_fits (found : List (Bool × Id)) : Fits .both found := ⟨by simp [Direction.drainsHaves], by simp [Direction.drainsHaveNots]⟩

example : ∃ found : List (Bool × Nat), ¬ Fits .up found ∧ Fits .both found ∧ Fits .down found :=
  ⟨(List.range 65).map (fun i => (false, i)), by
    intro h
    have := h.2 rfl
    revert this
    decide +kernel, C106_both_fits _, ⟨fun _ => by decide +kernel, by simp [Direction.drainsHaveNots]⟩⟩

/-- A run of a sync upwards that ends. -/
example : ((Chan.start [(true, 1), (false, 2), (true, 3)]).run .up [.push, .push, .takeHave, .push, .close, .takeHave, .ret]) = some ⟨[], [], [2], true, [1, 3], [], true⟩ := by decide +kernel

/-! ## C107: the transfers -/

/-- nip77.go:127-142: a goroutine of one direction: the list it fills (`none`: about to grab one), how many ids are in it, the ids it has seen, whether its channel is exhausted. -/
structure Dir (Id : Type) where
  list : Option Nat
  len : Nat
  seen : List Id
  over : Bool

/-- nip77.go:110-125 `doSync`: about to transfer its ids, about to give its list back, between the read and the write of `giveback` (idlistpool.go:38-41 takes no lock), done. -/
inductive Phase where
  | transfer | give
  | giving (old : List Nat)
  | done
  deriving DecidableEq, Repr

/-- A running `doSync` (nip77.go:110-125): its direction, its id list and how many ids are in it. -/
structure Job where
  dir : Nat
  list : Nat
  len : Nat
  phase : Phase
  deriving DecidableEq, Repr

/-- `mem`: the arrays behind the id lists; `pool`: idlistpool.go:9; `fresh`: number of lists made so far; `asked`: the ids requested per direction, newest batch last. -/
structure Sync (Id : Type) where
  mem : Nat → Nat → Option Id
  pool : List Nat
  fresh : Nat
  dirs : Nat → Dir Id
  jobs : List Job
  asked : Nat → List (List Id)

/-- idlistpool.go:13-22: the pool starts with one list. -/
def Sync.init : Sync Id where
  mem := fun _ _ => none
  pool := [0]
  fresh := 1
  dirs := fun _ => ⟨none, 0, [], false⟩
  jobs := []
  asked := fun _ => []

/-- The atomic actions of the machine; its step function says which lines each of them is. -/
inductive SyncLab (Id : Type) where
  /-- `pool.grab` (idlistpool.go:24-36, under the lock) -/
  | grab (d : Nat)
  /-- an id arrives from the channel -/
  | item (d : Nat) (x : Id)
  /-- the channel is closed and empty: the rest is transferred -/
  | finish (d : Nat)
  /-- a batch is requested from the source and published to the target -/
  | transfer (j : Nat)
  /-- `giveback` without interruption -/
  | give (j : Nat)
  /-- the read and the write of `giveback` -/
  | giveRead (j : Nat)
  | giveWrite (j : Nat)

/-- Assignment to one place. -/
def set {α : Type} (f : Nat → α) (n : Nat) (x : α) : Nat → α := fun m => if m = n then x else f m

/-- The ids in a list. -/
def idsIn (mem : Nat → Nat → Option Id) (list len : Nat) : List Id := (List.range len).filterMap (mem list)

/-- nip77.go:103-149. -/
def Sync.step [DecidableEq Id] (st : Sync Id) : SyncLab Id → Option (Sync Id)
  | .grab d =>
    if (st.dirs d).list = none ∧ (st.dirs d).over = false then
      match st.pool.getLast? with
      | some p => some { st with pool := st.pool.dropLast, dirs := set st.dirs d { st.dirs d with list := some p, len := 0 } }
      | none => some { st with fresh := st.fresh + 1, dirs := set st.dirs d { st.dirs d with list := some st.fresh, len := 0 } }
    else none
  | .item d x => match (st.dirs d).list with
    | none => none
    | some p =>
      if (st.dirs d).over then none
      else if x ∈ (st.dirs d).seen then some st
      else
        let dir := { st.dirs d with seen := (st.dirs d).seen ++ [x], len := (st.dirs d).len + 1 }
        let st := { st with mem := set st.mem p (set (st.mem p) (st.dirs d).len (some x)) }
        if dir.len = 50 then some { st with dirs := set st.dirs d { dir with list := none, len := 0 }, jobs := st.jobs ++ [⟨d, p, dir.len, .transfer⟩] }
        else some { st with dirs := set st.dirs d dir }
  | .finish d => match (st.dirs d).list with
    | none => none
    | some p => if (st.dirs d).over then none else some { st with dirs := set st.dirs d { st.dirs d with list := none, len := 0, over := true }, jobs := st.jobs ++ [⟨d, p, (st.dirs d).len, .transfer⟩] }
  | .transfer j => match st.jobs[j]? with
    | some ⟨d, p, n, .transfer⟩ => some { st with jobs := st.jobs.set j ⟨d, p, n, .give⟩, asked := if n = 0 then st.asked else set st.asked d (st.asked d ++ [idsIn st.mem p n]) }
    | _ => none
  | .give j => match st.jobs[j]? with
    | some ⟨d, p, n, .give⟩ => some { st with jobs := st.jobs.set j ⟨d, p, n, .done⟩, pool := st.pool ++ [p] }
    | _ => none
  | .giveRead j => match st.jobs[j]? with
    | some ⟨d, p, n, .give⟩ => some { st with jobs := st.jobs.set j ⟨d, p, n, .giving st.pool⟩ }
    | _ => none
  | .giveWrite j => match st.jobs[j]? with
    | some ⟨d, p, n, .giving old⟩ => some { st with jobs := st.jobs.set j ⟨d, p, n, .done⟩, pool := old ++ [p] }
    | _ => none

/-- A schedule: the actions one after the other. -/
def Sync.run [DecidableEq Id] (st : Sync Id) (ls : List (SyncLab Id)) : Option (Sync Id) := ls.foldlM Sync.step st

/-- The ids that arrived in a direction. -/
def arrived (d : Nat) (ls : List (SyncLab Id)) : List Id := ls.filterMap (fun l => match l with
  | .item e x => if e = d then some x else none
  | _ => none)

/-- The direction's channel is exhausted and all its batches were transferred. -/
def Sync.finished (st : Sync Id) (d : Nat) : Prop := (st.dirs d).over = true ∧ ∀ j ∈ st.jobs, j.dir = d → j.phase ≠ .transfer

/-! ### C107 is false -/

/-- `n` ids from `a` on arrive in direction `d`. -/
def items (d a n : Nat) : List (SyncLab Nat) := (List.range n).map (fun i => .item d (a + i))

/-- Direction 0 gets the ids 0-99 and 1000, direction 1 the ids 200-299 and 2000. The second batch of direction 0 gives its list back while direction 0 grabs the next one. -/
def lossRun : List (SyncLab Nat) :=
  [.grab 0, .grab 1] ++ items 0 0 50 ++ [.grab 0, .transfer 0, .give 0] ++ items 0 50 50 ++ [.transfer 1, .giveRead 1, .grab 0, .giveWrite 1] ++
  items 1 200 50 ++ [.grab 1] ++ items 1 250 50 ++ [.grab 1, .item 0 1000, .item 1 2000, .transfer 2, .transfer 3, .finish 0, .finish 1, .transfer 4, .transfer 5]

/-- C107 is false: in this run both directions end with all transfers done; the id 1000, which arrived in direction 0, was never requested there, and the id 2000 of the other direction was instead. -/
theorem C107_lost : ∃ st, Sync.run Sync.init lossRun = some st ∧ st.finished 0 ∧ st.finished 1 ∧ 1000 ∈ arrived 0 lossRun ∧ 1000 ∉ (st.asked 0).flatten ∧ 2000 ∈ (st.asked 0).flatten := by
  have key : (match Sync.run Sync.init lossRun with
    | none => false
    | some st => decide ((st.dirs 0).over = true ∧ (st.dirs 1).over = true ∧ (∀ j ∈ st.jobs, j.phase ≠ .transfer) ∧ 1000 ∉ (st.asked 0).flatten ∧ 2000 ∈ (st.asked 0).flatten)) = true := by
    decide +kernel
  cases hr : Sync.run Sync.init lossRun with
  | none => rw [hr] at key; cases key
  | some st =>
    rw [hr] at key
    obtain ⟨h1, h2, h3, h4, h5⟩ := of_decide_eq_true key
    exact ⟨st, rfl, ⟨h1, fun j hj _ => h3 j hj⟩, ⟨h2, fun j hj _ => h3 j hj⟩, by decide +kernel, h4, h5⟩

/-! ### Proofs -/

theorem set_flatMap_perm {α β : Type} (f : α → List β) {l : List α} {i : Nat} {a b : α} (h : l[i]? = some a) : ((l.set i b).flatMap f ++ f a).Perm (l.flatMap f ++ f b) := by
  induction l generalizing i with
  | nil => simp at h
  | cons c l ih =>
    cases i with
    | zero =>
      simp only [List.getElem?_cons_zero, Option.some.injEq] at h
      subst h
      simp only [List.set_cons_zero, List.flatMap_cons]
      refine (List.perm_append_comm.trans ?_)
      rw [← List.append_assoc, List.append_assoc, List.append_assoc]
      exact List.Perm.append_left _ List.perm_append_comm
    | succ i =>
      simp only [List.getElem?_cons_succ] at h
      simp only [List.set_cons_succ, List.flatMap_cons, List.append_assoc]
      exact List.Perm.append_left _ (ih h)

/-- The ids a job still has to transfer for direction `d`. -/
def pending (mem : Nat → Nat → Option Id) (d : Nat) (j : Job) : List Id := if j.dir = d ∧ j.phase = .transfer then idsIn mem j.list j.len else []

/-- The ids in the list a direction is filling. -/
def current (mem : Nat → Nat → Option Id) (dir : Dir Id) : List Id := match dir.list with
  | some p => idsIn mem p dir.len
  | none => []

/-- Auxiliary function of the proofs; models no code. -/
def Job.holds (j : Job) : Prop := j.phase = .transfer ∨ j.phase = .give

/-- Invariant used in the proofs; models no code. -/
structure SyncInv (st : Sync Id) (ls : List (SyncLab Id)) : Prop where
  poolFresh : ∀ p ∈ st.pool, p < st.fresh
  poolNodup : st.pool.Nodup
  poolDir : ∀ d p, (st.dirs d).list = some p → p ∉ st.pool
  poolJob : ∀ (i : Nat) (j : Job), st.jobs[i]? = some j → j.holds → j.list ∉ st.pool
  dirFresh : ∀ d p, (st.dirs d).list = some p → p < st.fresh
  dirDir : ∀ d e p, (st.dirs d).list = some p → (st.dirs e).list = some p → d = e
  dirJob : ∀ d p (i : Nat) (j : Job), (st.dirs d).list = some p → st.jobs[i]? = some j → j.holds → j.list ≠ p
  jobFresh : ∀ (i : Nat) (j : Job), st.jobs[i]? = some j → j.holds → j.list < st.fresh
  jobJob : ∀ (i k : Nat) (j j' : Job), st.jobs[i]? = some j → st.jobs[k]? = some j' → j.holds → j'.holds → j.list = j'.list → i = k
  full : ∀ d p, (st.dirs d).list = some p → ∀ k < (st.dirs d).len, (st.mem p k).isSome = true
  fullJob : ∀ (i : Nat) (j : Job), st.jobs[i]? = some j → j.holds → ∀ k < j.len, (st.mem j.list k).isSome = true
  short : ∀ d, (st.dirs d).len < 50
  shortJob : ∀ (i : Nat) (j : Job), st.jobs[i]? = some j → j.len ≤ 50
  seen : ∀ d, (st.dirs d).seen.Nodup ∧ ∀ x, x ∈ (st.dirs d).seen ↔ x ∈ arrived d ls
  all : ∀ d, (st.dirs d).seen.Perm ((st.asked d).flatten ++ (st.jobs.flatMap (pending st.mem d) ++ current st.mem (st.dirs d)))
  batch : ∀ d, ∀ b ∈ st.asked d, b ≠ [] ∧ b.length ≤ 50
  overList : ∀ d, (st.dirs d).over = true → (st.dirs d).list = none

theorem getElem?_snoc {α : Type} {l : List α} {a b : α} {k : Nat} (h : (l ++ [a])[k]? = some b) : l[k]? = some b ∨ (k = l.length ∧ b = a) := by
  grind

theorem filterMap_same {α β : Type} {f g : α → Option β} {l : List α} (h : ∀ a ∈ l, f a = g a) : l.filterMap f = l.filterMap g := by
  induction l with
  | nil => rfl
  | cons a l ih => simp only [List.filterMap_cons, h a (by simp), ih (fun b hb => h b (by simp [hb]))]

theorem arrived_snoc (d : Nat) (ls : List (SyncLab Id)) (l : SyncLab Id) : arrived d (ls ++ [l]) = arrived d ls ++ arrived d [l] := by simp [arrived]

theorem sync_init : SyncInv (Id := Id) Sync.init [] := by
  constructor <;> simp [Sync.init, arrived, current]

theorem arrived_other {d : Nat} {ls : List (SyncLab Id)} {l : SyncLab Id} (h : ∀ x, l ≠ .item d x) : arrived d (ls ++ [l]) = arrived d ls := by
  rw [arrived_snoc]
  cases l with
  | item e x =>
    have : e ≠ d := fun he => h x (by rw [he])
    simp [arrived, this]
  | _ => simp [arrived]

variable [DecidableEq Id]

theorem SyncInv.grab {st st' : Sync Id} {ls : List (SyncLab Id)} {d : Nat} (h : SyncInv st ls) (hs : st.step (.grab d) = some st') : SyncInv st' (ls ++ [.grab d]) := by
  have harr : ∀ e, arrived e (ls ++ [.grab d]) = arrived e ls := fun e => arrived_other (by simp)
  simp only [Sync.step] at hs
  split at hs
  · next hd =>
    obtain ⟨hnone, hover⟩ := hd
    have hcur : current st.mem (st.dirs d) = [] := by simp [current, hnone]
    split at hs
    · next p hp =>
      have hmem : p ∈ st.pool := List.mem_of_getLast? hp
      have hpool : st.pool = st.pool.dropLast ++ [p] := by obtain ⟨l, hl⟩ := List.getLast?_eq_some_iff.1 hp; rw [hl]; simp
      have hnd := h.poolNodup
      rw [hpool, List.nodup_append] at hnd
      have hp' : p ∉ st.pool.dropLast := fun hm => hnd.2.2 p hm p (by simp) rfl
      have hsub : ∀ q ∈ st.pool.dropLast, q ∈ st.pool := fun q hq => by rw [hpool]; simp [hq]
      simp only [Option.some.injEq] at hs
      subst hs
      refine ⟨?_, hnd.1, ?_, ?_, ?_, ?_, ?_, ?_, ?_, ?_, ?_, ?_, ?_, ?_, ?_, ?_, by clear harr hpool hp hnd hp' hsub hmem; intro e; have ho := h.overList e; have hod := h.overList d; simp only [set]; split <;> simp_all⟩
      · have := h.poolFresh; grind
      · have := h.poolDir; grind [set]
      · have := h.poolJob; grind
      · have := h.dirFresh; have := h.poolFresh; grind [set]
      · have := h.dirDir; have := h.poolDir; grind [set]
      · have := h.dirJob; have := h.poolJob; grind [set]
      · exact h.jobFresh
      · exact h.jobJob
      · have := h.full; grind [set]
      · exact h.fullJob
      · have := h.short; grind [set]
      · exact h.shortJob
      · intro e
        rw [harr]
        have := h.seen e
        grind [set]
      · intro e
        have := h.all e
        by_cases he : e = d
        · subst he
          rw [hcur] at this
          simpa [set, current, idsIn] using this
        · simpa [set, he, current] using this
      · exact h.batch
    · next hp =>
      simp only [Option.some.injEq] at hs
      subst hs
      refine ⟨?_, h.poolNodup, ?_, h.poolJob, ?_, ?_, ?_, ?_, h.jobJob, ?_, h.fullJob, ?_, h.shortJob, ?_, ?_, h.batch, by clear harr; intro e; have ho := h.overList e; have hod := h.overList d; simp only [set]; split <;> simp_all⟩
      · have := h.poolFresh; grind
      · have := h.poolDir; have := h.poolFresh; grind [set]
      · have := h.dirFresh; grind [set]
      · have := h.dirDir; have := h.dirFresh; grind [set]
      · have := h.dirJob; have := h.jobFresh; grind [set]
      · have := h.jobFresh; grind
      · have := h.full; grind [set]
      · have := h.short; grind [set]
      · intro e
        rw [harr]
        have := h.seen e
        grind [set]
      · intro e
        have := h.all e
        by_cases he : e = d
        · subst he
          rw [hcur] at this
          simpa [set, current, idsIn] using this
        · simpa [set, he, current] using this
  · cases hs

theorem SyncInv.transfer {st st' : Sync Id} {ls : List (SyncLab Id)} {i : Nat} (h : SyncInv st ls) (hs : st.step (.transfer i) = some st') : SyncInv st' (ls ++ [.transfer i]) := by
  have harr : ∀ e, arrived e (ls ++ [.transfer i]) = arrived e ls := fun e => arrived_other (by simp)
  simp only [Sync.step] at hs
  split at hs
  · next d p n hj =>
    have hlt : i < st.jobs.length := (List.getElem?_eq_some_iff.1 hj).1
    have hhold : (⟨d, p, n, .transfer⟩ : Job).holds := .inl rfl
    have hget : ∀ (k : Nat) (j : Job), (st.jobs.set i ⟨d, p, n, .give⟩)[k]? = some j → ∃ j0 : Job, st.jobs[k]? = some j0 ∧ (j.holds → j0.holds) ∧ j.list = j0.list ∧ j.len = j0.len := by
      intro k j hk
      by_cases he : i = k
      · subst he
        rw [List.getElem?_set_self hlt] at hk
        have := Option.some.inj hk
        subst this
        exact ⟨_, hj, fun _ => hhold, rfl, rfl⟩
      · rw [List.getElem?_set_ne he] at hk
        exact ⟨j, hk, id, rfl, rfl⟩
    simp only [Option.some.injEq] at hs
    subst hs
    refine ⟨h.poolFresh, h.poolNodup, h.poolDir, ?_, h.dirFresh, h.dirDir, ?_, ?_, ?_, h.full, ?_, h.short, ?_, ?_, ?_, ?_, h.overList⟩
    · intro k j hk hh
      obtain ⟨j0, hk, h1, h2, h3⟩ := hget k j hk
      rw [h2]
      exact h.poolJob _ _ hk (h1 hh)
    · intro e q k j he hk hh
      obtain ⟨j0, hk, h1, h2, h3⟩ := hget k j hk
      rw [h2]
      exact h.dirJob _ _ _ _ he hk (h1 hh)
    · intro k j hk hh
      obtain ⟨j0, hk, h1, h2, h3⟩ := hget k j hk
      rw [h2]
      exact h.jobFresh _ _ hk (h1 hh)
    · intro k k' j j' hk hk' hh hh' he
      obtain ⟨j0, hk, h1, h2, h3⟩ := hget k j hk
      obtain ⟨j1, hk', h1', h2', h3'⟩ := hget k' j' hk'
      exact h.jobJob _ _ _ _ hk hk' (h1 hh) (h1' hh') (by rw [← h2, ← h2', he])
    · intro k j hk hh
      obtain ⟨j0, hk, h1, h2, h3⟩ := hget k j hk
      rw [h2, h3]
      exact h.fullJob _ _ hk (h1 hh)
    · intro k j hk
      obtain ⟨j0, hk, h1, h2, h3⟩ := hget k j hk
      rw [h3]
      exact h.shortJob _ _ hk
    · intro e
      rw [harr]
      exact h.seen e
    · intro e
      refine (h.all e).trans ?_
      have hp := set_flatMap_perm (pending st.mem e) (b := ⟨d, p, n, .give⟩) hj
      have h0 : pending st.mem e ⟨d, p, n, .give⟩ = [] := by simp [pending]
      rw [h0, List.append_nil] at hp
      by_cases he : e = d
      · subst he
        have h1 : pending st.mem e ⟨e, p, n, .transfer⟩ = idsIn st.mem p n := by simp [pending]
        rw [h1] at hp
        have h2 : (if n = 0 then st.asked else set st.asked e (st.asked e ++ [idsIn st.mem p n])) e = (if n = 0 then st.asked e else st.asked e ++ [idsIn st.mem p n]) := by
          split <;> simp [set]
        simp only [h2]
        have h3 : (if n = 0 then st.asked e else st.asked e ++ [idsIn st.mem p n]).flatten = (st.asked e).flatten ++ idsIn st.mem p n := by
          split
          · next hn => subst hn; simp [idsIn]
          · simp
        rw [h3, List.append_assoc]
        refine List.Perm.append_left _ ?_
        rw [← List.append_assoc]
        refine List.Perm.append_right _ ?_
        exact hp.symm.trans List.perm_append_comm
      · have h1 : pending st.mem e ⟨d, p, n, .transfer⟩ = [] := by simp [pending, Ne.symm he]
        rw [h1, List.append_nil] at hp
        have h2 : (if n = 0 then st.asked else set st.asked d (st.asked d ++ [idsIn st.mem p n])) e = st.asked e := by
          split <;> simp [set, he]
        simp only [h2]
        exact List.Perm.append_left _ (List.Perm.append_right _ hp.symm)
    · intro e b hb
      have h2 : ∀ b ∈ (if n = 0 then st.asked else set st.asked d (st.asked d ++ [idsIn st.mem p n])) e, b ∈ st.asked e ∨ (n ≠ 0 ∧ b = idsIn st.mem p n) := by
        intro b hb
        split at hb
        · exact .inl hb
        · next hn =>
          simp only [set] at hb
          split at hb
          · next he =>
            subst he
            simp only [List.mem_append, List.mem_singleton] at hb
            exact hb.imp id (fun h => ⟨hn, h⟩)
          · exact .inl hb
      rcases h2 b hb with hb | ⟨hn, rfl⟩
      · exact h.batch e b hb
      · refine ⟨?_, ?_⟩
        · obtain ⟨x, hx⟩ := Option.isSome_iff_exists.1 (h.fullJob _ _ hj hhold 0 (Nat.pos_of_ne_zero hn))
          have : x ∈ idsIn st.mem p n := List.mem_filterMap.2 ⟨0, by simpa using Nat.pos_of_ne_zero hn, hx⟩
          exact List.ne_nil_of_mem this
        · exact Nat.le_trans (List.length_filterMap_le _ _) (by simpa using h.shortJob _ _ hj)
  · cases hs

theorem SyncInv.give {st st' : Sync Id} {ls : List (SyncLab Id)} {i : Nat} (h : SyncInv st ls) (hs : st.step (.give i) = some st') : SyncInv st' (ls ++ [.give i]) := by
  have harr : ∀ e, arrived e (ls ++ [.give i]) = arrived e ls := fun e => arrived_other (by simp)
  simp only [Sync.step] at hs
  split at hs
  · next d p n hj =>
    have hlt : i < st.jobs.length := (List.getElem?_eq_some_iff.1 hj).1
    have hhold : (⟨d, p, n, .give⟩ : Job).holds := .inr rfl
    have hget : ∀ (k : Nat) (j : Job), (st.jobs.set i ⟨d, p, n, .done⟩)[k]? = some j → j.holds → k ≠ i ∧ st.jobs[k]? = some j := by
      intro k j hk hh
      by_cases he : i = k
      · subst he
        rw [List.getElem?_set_self hlt] at hk
        have := Option.some.inj hk
        subst this
        rcases hh with hh | hh <;> cases hh
      · rw [List.getElem?_set_ne he] at hk
        exact ⟨fun h => he h.symm, hk⟩
    have hnp : p ∉ st.pool := h.poolJob _ _ hj hhold
    simp only [Option.some.injEq] at hs
    subst hs
    refine ⟨?_, ?_, ?_, ?_, h.dirFresh, h.dirDir, ?_, ?_, ?_, h.full, ?_, h.short, ?_, ?_, ?_, h.batch, h.overList⟩
    · intro q hq
      simp only [List.mem_append, List.mem_singleton] at hq
      rcases hq with hq | rfl
      · exact h.poolFresh q hq
      · exact h.jobFresh _ _ hj hhold
    · rw [List.nodup_append]
      refine ⟨h.poolNodup, by simp, ?_⟩
      intro a ha b hb hab
      simp only [List.mem_singleton] at hb
      subst hb; subst hab
      exact hnp ha
    · intro e q he hq
      simp only [List.mem_append, List.mem_singleton] at hq
      rcases hq with hq | rfl
      · exact h.poolDir e q he hq
      · exact h.dirJob _ _ _ _ he hj hhold rfl
    · intro k j hk hh hq
      obtain ⟨hne, hk⟩ := hget k j hk hh
      simp only [List.mem_append, List.mem_singleton] at hq
      rcases hq with hq | hq
      · exact h.poolJob _ _ hk hh hq
      · exact hne (h.jobJob _ _ _ _ hk hj hh hhold hq)
    · intro e q k j he hk hh
      exact h.dirJob _ _ _ _ he (hget k j hk hh).2 hh
    · intro k j hk hh
      exact h.jobFresh _ _ (hget k j hk hh).2 hh
    · intro k k' j j' hk hk' hh hh' he
      exact h.jobJob _ _ _ _ (hget k j hk hh).2 (hget k' j' hk' hh').2 hh hh' he
    · intro k j hk hh
      exact h.fullJob _ _ (hget k j hk hh).2 hh
    · intro k j hk
      by_cases he : i = k
      · subst he
        simp only [List.getElem?_set_self hlt] at hk
        have := Option.some.inj hk
        subst this
        have := h.shortJob _ _ hj
        exact this
      · simp only [List.getElem?_set_ne he] at hk
        exact h.shortJob _ _ hk
    · intro e
      rw [harr]
      exact h.seen e
    · intro e
      refine (h.all e).trans ?_
      have hp := set_flatMap_perm (pending st.mem e) (b := ⟨d, p, n, .done⟩) hj
      have h0 : pending st.mem e ⟨d, p, n, .give⟩ = [] := by simp [pending]
      have h1 : pending st.mem e ⟨d, p, n, .done⟩ = [] := by simp [pending]
      rw [h0, h1, List.append_nil, List.append_nil] at hp
      exact List.Perm.append_left _ (List.Perm.append_right _ hp.symm)
  · cases hs

theorem SyncInv.finish {st st' : Sync Id} {ls : List (SyncLab Id)} {d : Nat} (h : SyncInv st ls) (hs : st.step (.finish d) = some st') : SyncInv st' (ls ++ [.finish d]) := by
  have harr : ∀ e, arrived e (ls ++ [.finish d]) = arrived e ls := fun e => arrived_other (by simp)
  simp only [Sync.step] at hs
  split at hs
  · cases hs
  · next p hp =>
    split at hs
    · cases hs
    · simp only [Option.some.injEq] at hs
      subst hs
      have hget : ∀ (k : Nat) (j : Job), (st.jobs ++ [(⟨d, p, (st.dirs d).len, .transfer⟩ : Job)])[k]? = some j → st.jobs[k]? = some j ∨ (k = st.jobs.length ∧ j = ⟨d, p, (st.dirs d).len, .transfer⟩) := by
        intro k j hk
        exact getElem?_snoc hk
      have hset : ∀ e q, (set st.dirs d { st.dirs d with list := none, len := 0, over := true } e).list = some q → e ≠ d ∧ (st.dirs e).list = some q := by
        intro e q he
        grind [set]
      refine ⟨h.poolFresh, h.poolNodup, ?_, ?_, ?_, ?_, ?_, ?_, ?_, ?_, ?_, ?_, ?_, ?_, ?_, h.batch, by clear harr; intro e; have ho := h.overList e; have hod := h.overList d; simp only [set]; split <;> simp_all⟩
      · intro e q he
        exact h.poolDir e q (hset e q he).2
      · intro k j hk hh
        rcases hget k j hk with hk | ⟨-, rfl⟩
        · exact h.poolJob _ _ hk hh
        · exact h.poolDir _ _ hp
      · intro e q he
        exact h.dirFresh e q (hset e q he).2
      · intro e e' q he he'
        exact h.dirDir e e' q (hset e q he).2 (hset e' q he').2
      · intro e q k j he hk hh
        rcases hget k j hk with hk | ⟨-, rfl⟩
        · exact h.dirJob _ _ _ _ (hset e q he).2 hk hh
        · intro heq
          simp only at heq
          subst heq
          exact (hset e p he).1 (h.dirDir _ _ _ (hset e p he).2 hp)
      · intro k j hk hh
        rcases hget k j hk with hk | ⟨-, rfl⟩
        · exact h.jobFresh _ _ hk hh
        · exact h.dirFresh _ _ hp
      · intro k k' j j' hk hk' hh hh' he
        rcases hget k j hk with hk | ⟨hl, rfl⟩ <;> rcases hget k' j' hk' with hk' | ⟨hl', rfl⟩
        · exact h.jobJob _ _ _ _ hk hk' hh hh' he
        · exact absurd he (h.dirJob _ _ _ _ hp hk hh)
        · exact absurd he.symm (h.dirJob _ _ _ _ hp hk' hh')
        · rw [hl, hl']
      · intro e q he k hk
        have h1 := hset e q he
        have : (set st.dirs d { st.dirs d with list := none, len := 0, over := true } e).len = (st.dirs e).len := by simp [set, h1.1]
        exact h.full e q h1.2 k (by rw [← this]; exact hk)
      · intro k j hk hh
        rcases hget k j hk with hk | ⟨-, rfl⟩
        · exact h.fullJob _ _ hk hh
        · exact h.full d p hp
      · intro e
        have := h.short e
        grind [set]
      · intro k j hk
        rcases hget k j hk with hk | ⟨-, rfl⟩
        · exact h.shortJob _ _ hk
        · exact Nat.le_of_lt (h.short d)
      · intro e
        rw [harr]
        have := h.seen e
        grind [set]
      · intro e
        have := h.all e
        by_cases he : e = d
        · subst he
          have hc : current st.mem (st.dirs e) = idsIn st.mem p (st.dirs e).len := by simp [current, hp]
          rw [hc] at this
          simpa [set, current, pending] using this
        · simpa [set, he, current, pending, Ne.symm he] using this

omit [DecidableEq Id] in
theorem arrived_item (d : Nat) (ls : List (SyncLab Id)) (x : Id) : arrived d (ls ++ [.item d x]) = arrived d ls ++ [x] := by simp [arrived]

theorem SyncInv.item {st st' : Sync Id} {ls : List (SyncLab Id)} {d : Nat} {x : Id} (h : SyncInv st ls) (hs : st.step (.item d x) = some st') : SyncInv st' (ls ++ [.item d x]) := by
  have harr : ∀ e, e ≠ d → arrived e (ls ++ [.item d x]) = arrived e ls := fun e he => arrived_other (by intro y hy; cases hy; exact he rfl)
  simp only [Sync.step] at hs
  split at hs
  · cases hs
  · next p hp =>
    split at hs
    · cases hs
    · split at hs
      · next hx =>
        simp only [Option.some.injEq] at hs
        subst hs
        refine { h with seen := ?_ }
        intro e
        refine ⟨(h.seen e).1, fun y => ?_⟩
        by_cases he : e = d
        · subst he
          rw [arrived_item, (h.seen e).2, List.mem_append, List.mem_singleton]
          have := ((h.seen e).2 x).1 hx
          grind
        · rw [harr e he]
          exact (h.seen e).2 y
      · next hx =>
        have hm : ∀ q, q ≠ p → set st.mem p (set (st.mem p) (st.dirs d).len (some x)) q = st.mem q := by
          intro q hq
          simp [set, hq]
        have hfull : ∀ k < (st.dirs d).len + 1, (set st.mem p (set (st.mem p) (st.dirs d).len (some x)) p k).isSome = true := by
          intro k hk
          by_cases he : k = (st.dirs d).len
          · simp [set, he]
          · have := h.full d p hp k (by omega)
            simpa [set, he] using this
        have hids : idsIn (set st.mem p (set (st.mem p) (st.dirs d).len (some x))) p ((st.dirs d).len + 1) = idsIn st.mem p (st.dirs d).len ++ [x] := by
          simp only [idsIn, List.range_succ, List.filterMap_append]
          congr 1
          · apply filterMap_same
            intro k hk
            have : k ≠ (st.dirs d).len := by simp at hk; omega
            simp [set, this]
          · simp [set]
        generalize set st.mem p (set (st.mem p) (st.dirs d).len (some x)) = mem' at hm hfull hids hs
        have hidsq : ∀ q n, q ≠ p → idsIn mem' q n = idsIn st.mem q n := by
          intro q n hq
          simp [idsIn, hm q hq]
        have hjobs : ∀ e, st.jobs.flatMap (pending mem' e) = st.jobs.flatMap (pending st.mem e) := by
          intro e
          rw [List.flatMap_def, List.flatMap_def]
          congr 1
          apply List.map_congr_left
          intro j hj
          obtain ⟨i, hi⟩ := List.getElem?_of_mem hj
          simp only [pending]
          split
          · next hc => exact hidsq _ _ (h.dirJob d p i j hp hi (.inl hc.2))
          · rfl
        have hcur : ∀ e, e ≠ d → current mem' (st.dirs e) = current st.mem (st.dirs e) := by
          intro e he
          simp only [current]
          split
          · next q hq => exact hidsq _ _ (fun hqp => he (h.dirDir e d p (hqp ▸ hq) hp))
          · rfl
        have hcurd : current st.mem (st.dirs d) = idsIn st.mem p (st.dirs d).len := by simp [current, hp]
        have hseend : (st.dirs d).seen.Nodup ∧ ∀ y, y ∈ (st.dirs d).seen ↔ y ∈ arrived d ls := h.seen d
        have hseen' : ((st.dirs d).seen ++ [x]).Nodup ∧ ∀ y, y ∈ (st.dirs d).seen ++ [x] ↔ y ∈ arrived d (ls ++ [.item d x]) := by
          refine ⟨?_, fun y => ?_⟩
          · rw [List.nodup_append]
            refine ⟨hseend.1, by simp, ?_⟩
            intro a ha b hb hab
            simp only [List.mem_singleton] at hb
            subst hb; subst hab
            exact hx ha
          · rw [arrived_item, List.mem_append, List.mem_append, hseend.2]
        have hall : ((st.dirs d).seen ++ [x]).Perm ((st.asked d).flatten ++ (st.jobs.flatMap (pending mem' d) ++ idsIn mem' p ((st.dirs d).len + 1))) := by
          have := (h.all d).append_right [x]
          rw [hcurd] at this
          rw [hjobs, hids]
          simpa only [List.append_assoc] using this
        split at hs
        · next h50 =>
          simp only [Option.some.injEq] at hs
          subst hs
          have hget : ∀ (k : Nat) (j : Job), (st.jobs ++ [(⟨d, p, (st.dirs d).len + 1, .transfer⟩ : Job)])[k]? = some j → st.jobs[k]? = some j ∨ (k = st.jobs.length ∧ j = ⟨d, p, (st.dirs d).len + 1, .transfer⟩) := by
            intro k j hk
            exact getElem?_snoc hk
          have hset : ∀ e q, (set st.dirs d (⟨none, 0, (st.dirs d).seen ++ [x], (st.dirs d).over⟩ : Dir Id) e).list = some q → e ≠ d ∧ (st.dirs e).list = some q := by
            clear hall hseen' hseend hcur hjobs hidsq hids hfull hm harr
            intro e q he
            grind [set]
          refine ⟨h.poolFresh, h.poolNodup, ?_, ?_, ?_, ?_, ?_, ?_, ?_, ?_, ?_, ?_, ?_, ?_, ?_, h.batch, by clear harr; intro e; have ho := h.overList e; have hod := h.overList d; simp only [set]; split <;> simp_all⟩
          · intro e q he
            exact h.poolDir e q (hset e q he).2
          · intro k j hk hh
            rcases hget k j hk with hk | ⟨-, rfl⟩
            · exact h.poolJob _ _ hk hh
            · exact h.poolDir _ _ hp
          · intro e q he
            exact h.dirFresh e q (hset e q he).2
          · intro e e' q he he'
            exact h.dirDir e e' q (hset e q he).2 (hset e' q he').2
          · intro e q k j he hk hh
            rcases hget k j hk with hk | ⟨-, rfl⟩
            · exact h.dirJob _ _ _ _ (hset e q he).2 hk hh
            · intro heq
              simp only at heq
              subst heq
              exact (hset e p he).1 (h.dirDir _ _ _ (hset e p he).2 hp)
          · intro k j hk hh
            rcases hget k j hk with hk | ⟨-, rfl⟩
            · exact h.jobFresh _ _ hk hh
            · exact h.dirFresh _ _ hp
          · intro k k' j j' hk hk' hh hh' he
            rcases hget k j hk with hk | ⟨hl, rfl⟩ <;> rcases hget k' j' hk' with hk' | ⟨hl', rfl⟩
            · exact h.jobJob _ _ _ _ hk hk' hh hh' he
            · exact absurd he (h.dirJob _ _ _ _ hp hk hh)
            · exact absurd he.symm (h.dirJob _ _ _ _ hp hk' hh')
            · rw [hl, hl']
          · intro e q he k hk
            have h1 := hset e q he
            have hqp : q ≠ p := fun hqp => h1.1 (h.dirDir e d p (hqp ▸ h1.2) hp)
            have hlen : k < (st.dirs e).len := by
              simpa [set, h1.1] using hk
            have := h.full e q h1.2 k hlen
            simpa only [hm q hqp] using this
          · intro k j hk hh
            rcases hget k j hk with hk | ⟨-, rfl⟩
            · intro i hi
              have := h.fullJob _ _ hk hh i hi
              simpa only [hm _ (h.dirJob _ _ _ _ hp hk hh)] using this
            · exact hfull
          · intro e
            have := h.short e
            grind [set]
          · intro k j hk
            rcases hget k j hk with hk | ⟨-, rfl⟩
            · exact h.shortJob _ _ hk
            · exact h.short d
          · intro e
            by_cases he : e = d
            · subst he
              simpa [set] using hseen'
            · have := h.seen e
              rw [harr e he]
              simpa [set, he] using this
          · intro e
            by_cases he : e = d
            · subst he
              simpa [set, current, pending] using hall
            · have := h.all e
              rw [← hjobs, ← hcur e he] at this
              simpa [set, he, pending, Ne.symm he] using this
        · next h50 =>
          simp only [Option.some.injEq] at hs
          subst hs
          have hset : ∀ e q, (set st.dirs d (⟨(st.dirs d).list, (st.dirs d).len + 1, (st.dirs d).seen ++ [x], (st.dirs d).over⟩ : Dir Id) e).list = some q → (st.dirs e).list = some q := by
            clear hall hseen' hseend hcur hjobs hidsq hids hfull hm harr
            intro e q he
            grind [set]
          refine ⟨h.poolFresh, h.poolNodup, ?_, h.poolJob, ?_, ?_, ?_, h.jobFresh, h.jobJob, ?_, ?_, ?_, h.shortJob, ?_, ?_, h.batch, by clear harr; intro e; have ho := h.overList e; have hod := h.overList d; simp only [set]; split <;> simp_all⟩
          · intro e q he
            exact h.poolDir e q (hset e q he)
          · intro e q he
            exact h.dirFresh e q (hset e q he)
          · intro e e' q he he'
            exact h.dirDir e e' q (hset e q he) (hset e' q he')
          · intro e q k j he hk hh
            exact h.dirJob _ _ _ _ (hset e q he) hk hh
          · intro e q he k hk
            have h1 := hset e q he
            by_cases hed : e = d
            · subst hed
              have : q = p := Option.some.inj (h1.symm.trans hp)
              subst this
              exact hfull k (by simpa [set] using hk)
            · have hqp : q ≠ p := fun hqp => hed (h.dirDir e d p (hqp ▸ h1) hp)
              have := h.full e q h1 k (by simpa [set, hed] using hk)
              simpa only [hm q hqp] using this
          · intro k j hk hh i hi
            have := h.fullJob _ _ hk hh i hi
            simpa only [hm _ (h.dirJob _ _ _ _ hp hk hh)] using this
          · intro e
            have := h.short e
            have := h.short d
            simp only [set]
            split
            · simp only; omega
            · exact h.short e
          · intro e
            by_cases he : e = d
            · subst he
              simpa [set] using hseen'
            · have := h.seen e
              rw [harr e he]
              simpa [set, he] using this
          · intro e
            by_cases he : e = d
            · subst he
              simpa [set, current, hp] using hall
            · have := h.all e
              rw [← hjobs, ← hcur e he] at this
              simpa [set, he] using this

/-- No goroutine is interrupted between `giveback`'s reading of the pool and its writing of it. -/
def Uninterrupted (ls : List (SyncLab Id)) : Prop := ∀ j, .giveRead j ∉ ls ∧ .giveWrite j ∉ ls

theorem sync_run {ls done : List (SyncLab Id)} {st st' : Sync Id} (hu : Uninterrupted ls) (h : SyncInv st done) (hr : st.run ls = some st') : SyncInv st' (done ++ ls) := by
  induction ls generalizing st done with
  | nil =>
    simp only [Sync.run, List.foldlM_nil, pure, Option.some.injEq] at hr
    subst hr
    simpa using h
  | cons l ls ih =>
    simp only [Sync.run, List.foldlM_cons, bind, Option.bind_eq_some_iff] at hr
    obtain ⟨st1, h1, h2⟩ := hr
    have hu' : Uninterrupted ls := fun j => ⟨fun hm => (hu j).1 (by simp [hm]), fun hm => (hu j).2 (by simp [hm])⟩
    have hn : SyncInv st1 (done ++ [l]) := by
      cases l with
      | grab d => exact h.grab h1
      | item d x => exact h.item h1
      | finish d => exact h.finish h1
      | transfer j => exact h.transfer h1
      | give j => exact h.give h1
      | giveRead j => exact absurd (by simp) (hu j).1
      | giveWrite j => exact absurd (by simp) (hu j).2
    have := ih hu' hn h2
    simpa using this

/-- **C107** (partial). As long as no two goroutines hand their lists back at the same time, an
id that arrived in a direction is transferred in that direction exactly once by the time all its
batches are done, nothing else is, no batch is empty and none has more than fifty ids — however
many batches are under way at once and whichever list they got from the pool. Missing: the full
statement, which `C107_lost` refutes. -/
theorem C107_all_transferred_partial (ls : List (SyncLab Id)) (st : Sync Id) (d : Nat) (hu : Uninterrupted ls) (hr : Sync.init.run ls = some st) (hf : st.finished d) :
    (st.asked d).flatten.Nodup ∧ (∀ x, x ∈ (st.asked d).flatten ↔ x ∈ arrived d ls) ∧ ∀ b ∈ st.asked d, b ≠ [] ∧ b.length ≤ 50 := by
  have h : SyncInv st ls := by simpa using sync_run hu sync_init hr
  have hp := h.all d
  have hcur : current st.mem (st.dirs d) = [] := by
    simp [current, h.overList d hf.1]
  have hpend : st.jobs.flatMap (pending st.mem d) = [] := by
    rw [List.flatMap_eq_nil_iff]
    intro j hj
    simp only [pending]
    split
    · next hc => exact absurd hc.2 (hf.2 j hj hc.1)
    · rfl
  rw [hcur, hpend, List.append_nil, List.append_nil] at hp
  exact ⟨hp.nodup_iff.1 (h.seen d).1, fun x => by rw [← hp.mem_iff, (h.seen d).2], h.batch d⟩

/-- Two directions with two batches each under way at once, the first list reused. -/
def overlapRun : List (SyncLab Nat) :=
  [.grab 0] ++ items 0 0 50 ++ [.grab 0, .transfer 0, .grab 1] ++ items 0 50 3 ++ items 1 200 2 ++ [.give 0, .item 0 7] ++ [.finish 0, .finish 1, .transfer 2, .transfer 1, .give 2, .give 1]

example : (match Sync.init.run overlapRun with
    | some st => decide ((st.asked 0).flatten = List.range 53 ∧ (st.asked 0).length = 2 ∧ (st.asked 1) = [[200, 201]] ∧ (st.dirs 0).over = true ∧ (st.jobs.all (fun j => j.phase = .done)) = true)
    | none => false) = true := by decide +kernel

example : Uninterrupted overlapRun := by
  intro j
  simp [overlapRun, items]

/-- At any moment, finished or not, nothing is transferred that did not arrive, nor twice. -/
theorem C107_no_stranger_partial (ls : List (SyncLab Id)) (st : Sync Id) (d : Nat) (hu : Uninterrupted ls) (hr : Sync.init.run ls = some st) :
    (st.asked d).flatten.Nodup ∧ ∀ x ∈ (st.asked d).flatten, x ∈ arrived d ls := by
  have h : SyncInv st ls := by simpa using sync_run hu sync_init hr
  have hp := h.all d
  refine ⟨(hp.nodup_iff.1 (h.seen d).1).sublist (List.sublist_append_left _ _), fun x hx => ?_⟩
  exact ((h.seen d).2 x).1 (hp.mem_iff.2 (List.mem_append_left _ hx))

end GoNostr.NegSync
