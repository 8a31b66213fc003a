import Verif.Negentropy.Exact
/-!
# C161: fetching only the ids (`nip77.FetchIDsOnly`)

nip77/idsonly.go runs the client of a reconciliation over the storage of nip77/negentropy/storage/empty/empty.go, which holds nothing: `Size` is 0, `FindLowerBound` (always called with
`begin ≤ end = 0`) gives `begin`, `GetBound` the infinite bound, `Range` yields nothing, and `Fingerprint` is that of no items; these are the answers of a vector of no items, so the client of
`Model.lean` over `[]` is used. The first part follows a session with a relay that keeps to the protocol, the second the goroutines and channels of `FetchIDsOnly`.
-/

set_option autoImplicit false

namespace GoNostr.Neg

/-! ## A session -/

/-- idsonly.go:19: `1024*1024`. -/
def fetchLimit : Int := 1024 * 1024

/-- The session of `FetchIDsOnly` with a relay that holds `server`: idsonly.go:19-59, at most `rounds` round trips. -/
def fetchIDs (H : Hash32) (rounds : Nat) (limS : Int) (server : List Item) : Res Unit (Neg × Neg) :=
  syncLimited H rounds fetchLimit limS [] server

theorem itemCompare_ge {a b : Item} (h : ¬ ItemLt a b) : (itemCompare a b != -1) = true := by
  rcases itemCompare_spec a b with ⟨_, h1, _⟩ | ⟨h1, _⟩ | ⟨h1, _⟩
  · exact absurd h1 h
  · rw [h1]; decide
  · rw [h1]; decide

/-- The client's message: what is before `pb` is settled, everything from there on is wanted. -/
def want (sk : Bool) (pb : Item) : List Rng := fin sk pb ++ [⟨infiniteBound, .ids []⟩]

theorem want_small (y : Item) (hy : y.id.length = 64) (hg : 0 ≤ y.ts) (ht : y.ts + 1 < 2 ^ 56) : (2 + (encMsg 0 (want true y)).length) ≤ 7000 := by
  have h1 : (vi (y.ts - 0 + 1).toNat).length ≤ 16 := by
    have : (y.ts - 0 + 1).toNat < 2 ^ 56 := by omega
    exact (vi_size _ this).2
  have h2 : (vi (64 / 2)).length = 2 := by decide +kernel
  have h3 : (vi 0).length = 2 := by decide +kernel
  have h4 : (vi 2).length = 2 := by decide +kernel
  have hm : y.ts ≠ maxTimestamp := by
    rw [two56] at ht
    simp only [maxTimestamp, two63]
    omega
  simp only [want, fin, if_true, List.cons_append, List.nil_append, encMsg, encBound, encPay, hm, if_false, hy, infiniteBound, List.length_append, List.length_nil, List.flatten_nil, h2, h3, h4, Nat.zero_div]
  omega

/-- What the client does with what the relay wrote before the ids: nothing. -/
theorem client_fin (f : List Item → Bytes) (lc : Option Int) (sk : Bool) (pb : Item) (M : List Rng) : ∃ (pb' : Item) (sk' : Bool),
    procX f true lc (fin sk pb ++ M) 2 0 [] zeroBound false = procX f true lc M 2 0 [] pb' sk' := by
  cases sk with
  | false => exact ⟨zeroBound, false, rfl⟩
  | true => exact ⟨pb, true, rfl⟩

theorem splitX_nil (f : List Item → Bytes) (b : Item) : splitX f [] b = [⟨b, .ids []⟩] := rfl

theorem cancel_nil (l : List Bytes) : cancelIds l [] = ([], l) := rfl

/-- The client, holding nothing, reports all ids it is sent and asks for the rest if there is any. -/
theorem client_cut {f : List Item → Bytes} {lc : Option Int} (hlc : LimOK lc) {xs : List Bytes} (hx : xs.Nodup) {y : Item} {ys : List Item} (hy : y.id.length = 64) (hy0 : 0 ≤ y.ts) (hy1 : y.ts + 1 < 2 ^ 56)
    (hf : f (y :: ys) ≠ f []) (sk : Bool) (pb : Item) :
    procX f true lc (fin sk pb ++ [⟨y, .ids xs⟩] ++ [rest f (y :: ys)]) 2 0 [] zeroBound false = (want true y, [], xs) := by
  obtain ⟨pb', sk', e⟩ := client_fin f lc sk pb [⟨y, .ids xs⟩, rest f (y :: ys)]
  have hs := exceeded_small hlc (want_small y hy hy0 hy1)
  rw [List.append_assoc, List.cons_append, List.nil_append, e]
  simp only [procX, if_true, takeW, dropW, List.takeWhile_nil, List.dropWhile_nil, List.map_nil, cancel_nil, rest, splitX_nil]
  simp only [want] at hs ⊢
  simp [hs, hf, List.dedup_eq_self.2 hx]

theorem client_all {f : List Item → Bytes} {lc : Option Int} {xs : List Bytes} (hx : xs.Nodup) (sk : Bool) (pb : Item) (t : List Rng) (ht : t = [] ∨ t = [rest f []]) :
    procX f true lc (fin sk pb ++ [⟨infiniteBound, .ids xs⟩] ++ t) 2 0 [] zeroBound false = ([], [], xs) := by
  obtain ⟨pb', sk', e⟩ := client_fin f lc sk pb (⟨infiniteBound, .ids xs⟩ :: t)
  rw [List.append_assoc, List.cons_append, List.nil_append, e]
  rcases ht with rfl | rfl <;>
    simp [procX, takeW, dropW, cancel_nil, rest, List.dedup_eq_self.2 hx]

theorem monoB_fin {sk : Bool} {pb b : Item} {M : List Rng} {p : Pay} (h0 : ¬ ItemLt pb zeroBound) (h1 : ¬ ItemLt b pb) (h2 : ¬ ItemLt b zeroBound) (h : monoB b M = true) :
    monoB zeroBound (fin sk pb ++ ⟨b, p⟩ :: M) = true := by
  cases sk with
  | false => simp only [fin, Bool.false_eq_true, if_false, List.nil_append, monoB, itemCompare_ge h2, h, Bool.and_self]
  | true => simp only [fin, if_true, List.cons_append, List.nil_append, monoB, itemCompare_ge h0, itemCompare_ge h1, h, Bool.and_self]

theorem run_want (f : List Item → Bytes) (lc ls : Option Int) (hlc : LimOK lc) (hls : LimOK ls) (B : List Item) (hB : VecOK B) (hid : (B.map (·.id)).Nodup)
    (hf : ls.isSome = true → ∀ X, X ≠ [] → X <:+ B → f X ≠ f []) : ∀ (n : Nat) (P R : List Item) (pb : Item) (sk : Bool), B = P ++ R → R.length < n →
      (sk = false ∧ P = [] ∧ pb = zeroBound ∨ sk = true ∧ ∃ tl, R = pb :: tl) →
      runX f lc ls [] B n (want sk pb) = some ([], R.map (·.id))
  | 0, _, _, _, _, _, h, _ => by omega
  | n + 1, P, R, pb, sk, hPR, hn, hc => by
    have hR : ∀ x ∈ R, x ∈ B := fun x hx => by rw [hPR]; exact List.mem_append_right _ hx
    have hall : takeW infiniteBound R = R ∧ dropW infiniteBound R = [] := all_below (fun x hx => below_inf (hB.ts x (hR x hx)).2)
    have hpb0 : ¬ ItemLt pb zeroBound := by
      rcases hc with ⟨_, _, rfl⟩ | ⟨_, tl, rfl⟩
      · exact ItemLt.irrefl _
      · exact not_lt_zeroBound (hB.ts _ (hR _ (by simp))).1
    have hpbi : ¬ ItemLt infiniteBound pb := by
      rcases hc with ⟨_, _, rfl⟩ | ⟨_, tl, rfl⟩
      · exact inf_ge_zero
      · exact fun h => h.asymm (below_inf (hB.ts _ (hR _ (by simp))).2)
    have hsrv : procX f false ls (want sk pb) 2 0 B zeroBound false = procX f false ls [⟨infiniteBound, .ids []⟩] 2 0 R pb sk := by
      rcases hc with ⟨rfl, rfl, rfl⟩ | ⟨rfl, tl, rfl⟩
      · rw [hPR]; rfl
      · have hd : dropW pb B = pb :: tl := by
          rw [hPR]
          refine (split_at (b := pb) (xs := P) (Z := pb :: tl) (fun x hx => ?_) (fun x hx => ?_)).2
          · have := hB.sorted
            rw [hPR, List.pairwise_append] at this
            exact this.2.2 x hx pb (by simp)
          · have := hB.sorted
            rw [hPR, List.pairwise_append, List.pairwise_cons] at this
            rcases List.mem_cons.1 hx with rfl | hx
            · exact ItemLt.irrefl _
            · exact fun h => h.asymm (this.2.1.1 x hx)
        simp only [want, fin, if_true, List.cons_append, List.nil_append]
        rw [procX, hd]
    have hm0 : monoB zeroBound (want sk pb) = true := monoB_fin hpb0 hpbi inf_ge_zero rfl
    have hnd : (R.map (·.id)).Nodup := by
      rw [hPR, List.map_append] at hid
      exact (List.nodup_append.1 hid).2.1
    rcases respLoop_eq ls 2 R 0 0 (fun x hx => hB.idLen x (hR x hx)) with hr | ⟨xs, y, ys, rfl, hr, hx⟩
    · -- everything fits
      have : ∃ t, (t = [] ∨ t = [rest f []]) ∧ procX f false ls [⟨infiniteBound, .ids []⟩] 2 0 R pb sk = (fin sk pb ++ [⟨infiniteBound, .ids (R.map (·.id))⟩] ++ t, [], []) := by
        rw [procX, if_neg (by decide)]
        simp only [hall.1, hall.2, hr]
        split
        · exact ⟨_, Or.inr rfl, rfl⟩
        · exact ⟨[], Or.inl rfl, by simp [procX]⟩
      obtain ⟨t, ht, e⟩ := this
      have hm1 : monoB zeroBound (fin sk pb ++ [⟨infiniteBound, .ids (R.map (·.id))⟩] ++ t) = true := by
        rw [List.append_assoc]
        refine monoB_fin hpb0 hpbi inf_ge_zero ?_
        rcases ht with rfl | rfl <;> rfl
      simp only [runX, hsrv, e, client_all hnd sk pb t ht, hm0, hm1, Bool.and_self, if_true, List.isEmpty_nil]
    · have hls' : ls.isSome = true := exceeded_some hx
      have hyB : y ∈ B := hR y (by simp)
      have hne : f (y :: ys) ≠ f [] := hf hls' _ (by simp) ⟨P ++ xs, by rw [hPR]; simp⟩
      have hxs : xs ≠ [] := by
        rintro rfl
        rw [exceeded_add (by decide), exceeded_small hls (by simp)] at hx
        cases hx
      have e : procX f false ls [⟨infiniteBound, .ids []⟩] 2 0 (xs ++ y :: ys) pb sk = (fin sk pb ++ [⟨y, .ids (xs.map (·.id))⟩] ++ [rest f (y :: ys)], [], []) := by
        rw [procX, if_neg (by decide)]
        simp only [hall.1, hr]
        simp
      have hxn : (xs.map (·.id)).Nodup := by
        rw [List.map_append] at hnd
        exact (List.nodup_append.1 hnd).1
      have hypb : ¬ ItemLt y pb := by
        rcases hc with ⟨_, _, rfl⟩ | ⟨_, tl, ht⟩
        · exact not_lt_zeroBound (hB.ts _ hyB).1
        · cases xs with
          | nil => exact absurd rfl hxs
          | cons x xs =>
            simp only [List.cons_append, List.cons.injEq] at ht
            obtain ⟨rfl, rfl⟩ := ht
            have := hB.sorted
            rw [hPR, List.pairwise_append, List.cons_append, List.pairwise_cons] at this
            exact fun h => h.asymm (this.2.1.1 y (by simp))
      have hm1 : monoB zeroBound (fin sk pb ++ [⟨y, .ids (xs.map (·.id))⟩] ++ [rest f (y :: ys)]) = true := by
        rw [List.append_assoc]
        refine monoB_fin hpb0 hypb (not_lt_zeroBound (hB.ts _ hyB).1) ?_
        show (itemCompare infiniteBound y != -1 && true) = true
        rw [itemCompare_ge (fun h => h.asymm (below_inf (hB.ts _ hyB).2))]
        rfl
      have ih := run_want f lc ls hlc hls B hB hid hf n (P ++ xs) (y :: ys) y true (by rw [hPR]; simp)
        (by simp only [List.length_append, List.length_cons] at hn ⊢; have := List.length_pos_iff.2 hxs; omega) (Or.inr ⟨rfl, ys, rfl⟩)
      simp only [runX, hsrv, e, client_cut hlc hxn (hB.idLen y hyB) (hB.ts y hyB).1 (hB.ts y hyB).2 hne sk pb, hm0, hm1, Bool.and_self, if_true]
      rw [if_neg (by simp [want]), ih]
      simp

/-- **C161 (partial: see below): the ids of a relay.** For any set of items (any number of them) of a relay that keeps to the protocol, with any frame size limit of its own (0 for none): the session of `FetchIDsOnly` ends within as many round trips as there are items and one more, without error or panic, and has then
reported exactly the ids the relay has, each once, provided no final piece of the relay's items has the fingerprint of no items at all (needed only for relays with a limit). Missing, because false: relays that refuse, or that do not keep to the protocol (`C161_refusal_hangs`). -/
theorem C161_ids_partial (H : Hash32) (B : List Item) (hB : VecOK B) (hid : ∀ x ∈ B, ∀ y ∈ B, x.id = y.id → x = y) (limS : Int) (hS : limS = 0 ∨ 4096 ≤ limS)
    (hf : limS ≠ 0 → ∀ X, X ≠ [] → X <:+ B → rangeFp H X ≠ rangeFp H []) (extra : Nat) :
    ∃ c s, fetchIDs H (B.length + 1 + extra) limS B = .ok (c, s) ∧ c.haves = [] ∧ c.haveNots.Perm (B.map (·.id)) := by
  obtain ⟨_, hl⟩ := new_eq hS B
  obtain ⟨_, hlc⟩ := new_eq (l := fetchLimit) (Or.inr (by decide)) []
  have hA : VecOK [] := ⟨List.Pairwise.nil, by simp, by simp, by simp, List.Pairwise.nil⟩
  have h := run_want (rangeFp H) (limitOf fetchLimit) (limitOf limS) hlc hl B hB (ids_nodup hB hid) (fun hs => hf (by rintro rfl; simp [limitOf] at hs)) (B.length + 1) [] B zeroBound false rfl (by omega) (Or.inl ⟨rfl, rfl, rfl⟩)
  obtain ⟨c, s, e, h1, h2⟩ := syncX_eq H [] B hA hB fetchLimit limS (Or.inr (by decide)) hS (B.length + 1) extra _ h
  exact ⟨c, s, e, h1, by rw [h2]⟩

/-- **C161 (partial): without a limit at the relay one round trip is enough**, and fingerprints play no part. -/
theorem C161_one_round_partial (H : Hash32) (B : List Item) (hB : VecOK B) (hid : ∀ x ∈ B, ∀ y ∈ B, x.id = y.id → x = y) :
    ∃ c s, fetchIDs H 1 0 B = .ok (c, s) ∧ c.haves = [] ∧ c.haveNots.Perm (B.map (·.id)) := by
  have hA : VecOK [] := ⟨List.Pairwise.nil, by simp, by simp, by simp, List.Pairwise.nil⟩
  have hall : takeW infiniteBound B = B ∧ dropW infiniteBound B = [] := all_below (fun x hx => below_inf (hB.ts x hx).2)
  have hnd := ids_nodup hB hid
  have hM : ∀ l, monoB zeroBound [⟨infiniteBound, .ids l⟩] = true := fun l => by
    show (itemCompare infiniteBound zeroBound != -1 && true) = true
    rw [itemCompare_ge inf_ge_zero]
    rfl
  have h1 : procX (rangeFp H) false none [⟨infiniteBound, .ids []⟩] 2 0 B zeroBound false = ([⟨infiniteBound, .ids (B.map (·.id))⟩], [], []) := by
    rw [procX, if_neg (by decide)]
    simp only [hall.1, hall.2, respLoop_none]
    simp [procX, fin, exceeded]
  have h2 := client_all (f := rangeFp H) (lc := limitOf fetchLimit) hnd false zeroBound [] (Or.inl rfl)
  simp only [fin, Bool.false_eq_true, if_false, List.nil_append, List.append_nil] at h2
  have h : runX (rangeFp H) (limitOf fetchLimit) (limitOf 0) [] B 1 (splitX (rangeFp H) [] infiniteBound) = some ([], B.map (·.id)) := by
    rw [splitX_nil]
    simp only [runX, limitOf, if_true, h1, hM, Bool.and_self]
    simp only [limitOf] at h2
    rw [h2]
    rfl
  obtain ⟨c, s, e, h3, h4⟩ := syncX_eq H [] B hA hB fetchLimit 0 (Or.inr (by decide)) (Or.inl rfl) 1 0 _ h
  exact ⟨c, s, e, h3, by rw [h4]⟩

/-- A relay with 160 items and the smallest limit, to which `C161_ids_partial` applies. -/
example : ∃ c s, fetchIDs padHash (dupS.length + 1 + 0) 4096 dupS = .ok (c, s) ∧ c.haves = [] ∧ c.haveNots.Perm (dupS.map (·.id)) :=
  C161_ids_partial padHash dupS vecOK_dupS (fun x hx y hy => idsIdentify_dup x (List.mem_append_right _ hx) y (List.mem_append_right _ hy)) 4096 (Or.inr (by decide))
    (fun _ X hX hs he => hX (collisionFree_dup [] X ⟨[], lossC, by simp⟩ hs.isInfix he.symm).symm) 0

/-- It needs two round trips: after the first the relay has sent 122 ids. -/
example : (procX (rangeFp padHash) false (some 4096) (want false zeroBound) 2 0 dupS zeroBound false).1.map (fun r => match r.pay with | .ids l => l.length | _ => 0) = [122, 0] := by decide +kernel

end GoNostr.Neg

/-! ## The goroutines and the channel -/

namespace GoNostr.NegFetch

variable {Id : Type}

/-- What `Reconcile` makes of a message after pushing the ids: it goes on, it is done (and closes `HaveNots`), or it fails. -/
inductive Outcome where
  | more | done | fail
  deriving DecidableEq, Repr

/-- What the relay sends, as far as the custom handler can tell (idsonly.go:23-46): something that is no negentropy message, a NEG-ERR, NEG-OPEN or NEG-CLOSE, or a NEG-MSG in which `Reconcile` finds the ids. -/
inductive Msg (Id : Type) where
  | other
  | refusal
  | msg (ids : List Id) (o : Outcome)

/-- The reader of the connection: between two messages, pushing ids into `HaveNots`, blocked on the channel `result`, or gone because the connection was lost or its context cancelled. -/
inductive Rd (Id : Type) where
  | idle
  | pushing (ids : List Id) (o : Outcome)
  | stuck
  | gone

/-- `inbox`: messages not yet handled; `buf`, `closed`: the channel `HaveNots`; `hold`: the id the forwarding goroutine is about to send on the channel returned; `out`: what the consumer received; `listening`: whether
it still receives; `over`: the channel returned is closed; `crashed`: a send on or close of the closed channel `HaveNots`. -/
structure St (Id : Type) where
  inbox : List (Msg Id)
  rd : Rd Id
  buf : List Id
  closed : Bool
  hold : Option Id
  out : List Id
  listening : Bool
  over : Bool
  crashed : Bool

/-- The state at the start: the messages of the relay are still to come. -/
def St.start (msgs : List (Msg Id)) : St Id := ⟨msgs, .idle, [], false, none, [], true, false, false⟩

/-- The atomic actions of the machine; its step function says which lines each of them is. -/
inductive Lab where
  /-- the reader takes a message -/
  | recv
  /-- `Reconcile` sends one id -/
  | push
  /-- `Reconcile` returns -/
  | fin
  /-- the connection is lost, or `ctx` cancelled -/
  | lost
  /-- the forwarder receives from `HaveNots` -/
  | take
  /-- the consumer receives from the channel returned -/
  | deliver
  /-- the forwarder sees `HaveNots` closed and closes the channel returned -/
  | close
  /-- the consumer stops receiving -/
  | quit
  deriving DecidableEq, Repr

/-- What the handler does with a message (idsonly.go:23-46) and what becomes of the reader. The sends on `result` (28, 31, 36) are never received: nothing in the function receives from it. After `HaveNots` was closed (negentropy.go:78-82), sending on it or
closing it again crashes (see also C108). -/
def handle (st : St Id) : Msg Id → St Id
  | .other => st
  | .refusal => { st with rd := .stuck }
  | .msg ids o =>
    if st.closed = true ∧ (ids ≠ [] ∨ o = .done) then { st with crashed := true }
    else { st with rd := .pushing ids o }

/-- idsonly.go:12-70 with negentropy.go:69-85; the capacity of `HaveNots` is 64 (negentropy.go:43). The writes to the relay (idsonly.go:42-43, 65-66) are left out; their answers are not waited for. -/
def step [DecidableEq Id] (st : St Id) : Lab → Option (St Id)
  | .recv => if st.crashed then none else match st.rd, st.inbox with
    | .idle, m :: rest => some (handle { st with inbox := rest } m)
    | _, _ => none
  | .push => if st.crashed then none else match st.rd with
    | .pushing (x :: ids) o => if st.buf.length < 64 then some { st with buf := st.buf ++ [x], rd := .pushing ids o } else none
    | _ => none
  | .fin => if st.crashed then none else match st.rd with
    | .pushing [] .more => some { st with rd := .idle }
    | .pushing [] .done => some { st with rd := .idle, closed := true }
    | .pushing [] .fail => some { st with rd := .stuck }
    | _ => none
  | .lost => if st.crashed then none else match st.rd with
    | .idle => some { st with rd := .gone }
    | _ => none
  | .take => if st.crashed then none else match st.hold, st.buf with
    | none, x :: rest => some { st with hold := some x, buf := rest }
    | _, _ => none
  | .deliver => if st.crashed then none else match st.hold with
    | some x => if st.listening then some { st with hold := none, out := st.out ++ [x] } else none
    | none => none
  | .close => if st.crashed then none else if st.closed = true ∧ st.buf = [] ∧ st.hold.isNone ∧ st.over = false then some { st with over := true } else none
  | .quit => if st.crashed then none else if st.listening then some { st with listening := false } else none

/-- A schedule: the actions one after the other. -/
def run [DecidableEq Id] (st : St Id) (ls : List Lab) : Option (St Id) := ls.foldlM step st

/-! ### Specification -/

/-- The ids of a conversation, if it comes to its end: all messages up to the final one are fine. -/
def conversation : List (Msg Id) → Option (List Id)
  | [] => none
  | .other :: rest => conversation rest
  | .refusal :: _ => none
  | .msg ids .more :: rest => (conversation rest).map (ids ++ ·)
  | .msg ids .done :: _ => some ids
  | .msg _ .fail :: _ => none

/-- Nothing follows the final message that would crash the client. -/
def Quiet : List (Msg Id) → Prop
  | [] => True
  | .msg _ .done :: rest => ∀ m ∈ rest, m = .other
  | _ :: rest => Quiet rest

/-- The most actions a conversation takes: receiving and finishing each message, three for each id, and closing the channel. -/
def actions (msgs : List (Msg Id)) : Nat := (msgs.map fun m => match m with
  | .msg ids _ => 3 * ids.length + 2
  | _ => 1).sum + 1

/-! ### Proofs -/

/-- The ids still to come. -/
def rem (st : St Id) : Option (List Id) := match st.rd with
  | .idle => if st.closed then some [] else conversation st.inbox
  | .pushing ids .more => if st.closed then some [] else (conversation st.inbox).map (ids ++ ·)
  | .pushing ids .done => some ids
  | .pushing _ .fail => if st.closed then some [] else none
  | .stuck => if st.closed then some [] else none
  | .gone => if st.closed then some [] else none

/-- Auxiliary function of the proofs; models no code. -/
def total (st : St Id) : Option (List Id) := (rem st).map (fun r => st.out ++ (st.hold.toList ++ (st.buf ++ r)))

/-- Invariant used in the proofs; models no code. -/
structure Inv (msgs : List (Msg Id)) (st : St Id) : Prop where
  tot : ∀ l, total st = some l → conversation msgs = some l
  over : st.over = true → st.closed = true ∧ st.buf = [] ∧ st.hold = none
  cl : st.closed = true → ∀ ids o, st.rd = .pushing ids o → ids = [] ∧ o ≠ .done

theorem Inv.step [DecidableEq Id] {msgs : List (Msg Id)} {st st' : St Id} {l : Lab} (h : Inv msgs st) (hs : step st l = some st') : Inv msgs st' ∧ (l ≠ .lost → total st' = total st) := by
  obtain ⟨inbox, rd, buf, closed, hold, out, listening, over, crashed⟩ := st
  obtain ⟨h1, h2, h3⟩ := h
  cases crashed with
  | true => cases l <;> simp [NegFetch.step] at hs
  | false =>
    cases l with
    | recv =>
      simp only [NegFetch.step, Bool.false_eq_true, if_false] at hs
      split at hs
      · rename_i m rest
        simp only [Option.some.injEq] at hs
        subst hs
        cases m with
        | other =>
          have e : total (handle ⟨rest, .idle, buf, closed, hold, out, listening, over, false⟩ .other) = total ⟨.other :: rest, .idle, buf, closed, hold, out, listening, over, false⟩ := by
            cases closed <;> simp [handle, total, rem, conversation]
          exact ⟨⟨fun l hl => h1 l (e ▸ hl), h2, fun hc ids o hr => by simp [handle] at hr⟩, fun _ => e⟩
        | refusal =>
          have e : total (handle ⟨rest, .idle, buf, closed, hold, out, listening, over, false⟩ .refusal) = total ⟨.refusal :: rest, .idle, buf, closed, hold, out, listening, over, false⟩ := by
            cases closed <;> simp [handle, total, rem, conversation]
          exact ⟨⟨fun l hl => h1 l (e ▸ hl), h2, fun hc ids o hr => by simp [handle] at hr⟩, fun _ => e⟩
        | msg ids o =>
          by_cases hc : closed = true ∧ (ids ≠ [] ∨ o = .done)
          · have e : total (handle ⟨rest, .idle, buf, closed, hold, out, listening, over, false⟩ (.msg ids o)) = total ⟨.msg ids o :: rest, .idle, buf, closed, hold, out, listening, over, false⟩ := by
              simp only [handle]
              rw [if_pos hc]
              simp [total, rem, hc.1]
            refine ⟨⟨fun l hl => h1 l (e ▸ hl), ?_, ?_⟩, fun _ => e⟩
            · simp only [handle]
              rw [if_pos hc]
              exact h2
            · simp only [handle]
              rw [if_pos hc]
              intro _ ids o hr
              cases hr
          · have e : total (handle ⟨rest, .idle, buf, closed, hold, out, listening, over, false⟩ (.msg ids o)) = total ⟨.msg ids o :: rest, .idle, buf, closed, hold, out, listening, over, false⟩ := by
              simp only [handle]
              rw [if_neg hc]
              cases closed <;> cases o <;> simp_all [total, rem, conversation]
            refine ⟨⟨fun l hl => h1 l (e ▸ hl), ?_, ?_⟩, fun _ => e⟩
            · simp only [handle]
              rw [if_neg hc]
              exact h2
            · simp only [handle]
              rw [if_neg hc]
              intro hcl ids' o' hr
              simp only [Rd.pushing.injEq] at hr
              obtain ⟨rfl, rfl⟩ := hr
              exact ⟨by by_contra hne; exact hc ⟨hcl, Or.inl hne⟩, fun ho => hc ⟨hcl, Or.inr ho⟩⟩
      · cases hs
    | push =>
      simp only [NegFetch.step, Bool.false_eq_true, if_false] at hs
      split at hs
      · next x ids o =>
        have hcl : closed = false := by
          cases closed with
          | false => rfl
          | true => simpa using (h3 rfl _ _ rfl).1
        subst hcl
        split at hs
        · simp only [Option.some.injEq] at hs
          subst hs
          have e : total ⟨inbox, .pushing ids o, buf ++ [x], false, hold, out, listening, over, false⟩ = total ⟨inbox, .pushing (x :: ids) o, buf, false, hold, out, listening, over, false⟩ := by
            cases o <;> simp [total, rem, Function.comp_def]
          exact ⟨⟨fun l hl => h1 l (e ▸ hl), fun ho => by simpa using (h2 ho).1, fun hc => by cases hc⟩, fun _ => e⟩
        · cases hs
      · cases hs
    | fin =>
      simp only [NegFetch.step, Bool.false_eq_true, if_false] at hs
      split at hs
      · simp only [Option.some.injEq] at hs
        subst hs
        have e : total ⟨inbox, .idle, buf, closed, hold, out, listening, over, false⟩ = total ⟨inbox, .pushing [] .more, buf, closed, hold, out, listening, over, false⟩ := by
          cases closed <;> simp [total, rem]
        exact ⟨⟨fun l hl => h1 l (e ▸ hl), h2, fun _ _ _ hr => by cases hr⟩, fun _ => e⟩
      · simp only [Option.some.injEq] at hs
        subst hs
        have e : total ⟨inbox, .idle, buf, true, hold, out, listening, over, false⟩ = total ⟨inbox, .pushing [] .done, buf, closed, hold, out, listening, over, false⟩ := by
          cases closed <;> simp [total, rem]
        exact ⟨⟨fun l hl => h1 l (e ▸ hl), fun ho => ⟨rfl, (h2 ho).2⟩, fun _ _ _ hr => by cases hr⟩, fun _ => e⟩
      · simp only [Option.some.injEq] at hs
        subst hs
        have e : total ⟨inbox, .stuck, buf, closed, hold, out, listening, over, false⟩ = total ⟨inbox, .pushing [] .fail, buf, closed, hold, out, listening, over, false⟩ := by
          cases closed <;> simp [total, rem]
        exact ⟨⟨fun l hl => h1 l (e ▸ hl), h2, fun _ _ _ hr => by cases hr⟩, fun _ => e⟩
      · cases hs
    | lost =>
      simp only [NegFetch.step, Bool.false_eq_true, if_false] at hs
      split at hs
      · simp only [Option.some.injEq] at hs
        subst hs
        refine ⟨⟨fun l hl => h1 l ?_, h2, fun _ _ _ hr => by cases hr⟩, fun h => absurd rfl h⟩
        cases closed with
        | true => exact hl
        | false => simp [total, rem] at hl
      · cases hs
    | take =>
      simp only [NegFetch.step, Bool.false_eq_true, if_false] at hs
      split at hs
      · next x rest =>
        simp only [Option.some.injEq] at hs
        subst hs
        have e : total ⟨inbox, rd, rest, closed, some x, out, listening, over, false⟩ = total ⟨inbox, rd, x :: rest, closed, none, out, listening, over, false⟩ := by
          cases closed <;> simp [total, rem]
        exact ⟨⟨fun l hl => h1 l (e ▸ hl), fun ho => by simpa using (h2 ho).2.1, h3⟩, fun _ => e⟩
      · cases hs
    | deliver =>
      simp only [NegFetch.step, Bool.false_eq_true, if_false] at hs
      split at hs
      · next x =>
        split at hs
        · simp only [Option.some.injEq] at hs
          subst hs
          have e : total ⟨inbox, rd, buf, closed, none, out ++ [x], listening, over, false⟩ = total ⟨inbox, rd, buf, closed, some x, out, listening, over, false⟩ := by
            cases closed <;> simp [total, rem]
          exact ⟨⟨fun l hl => h1 l (e ▸ hl), fun ho => by simpa using (h2 ho).2.2, h3⟩, fun _ => e⟩
        · cases hs
      · cases hs
    | close =>
      simp only [NegFetch.step, Bool.false_eq_true, if_false] at hs
      split at hs
      · next hcond =>
        simp only [Option.some.injEq] at hs
        subst hs
        exact ⟨⟨h1, fun _ => ⟨hcond.1, hcond.2.1, by simpa using hcond.2.2.1⟩, h3⟩, fun _ => rfl⟩
      · cases hs
    | quit =>
      simp only [NegFetch.step, Bool.false_eq_true, if_false] at hs
      split at hs
      · simp only [Option.some.injEq] at hs
        subst hs
        exact ⟨⟨h1, h2, h3⟩, fun _ => rfl⟩
      · cases hs

theorem inv_start (msgs : List (Msg Id)) : Inv msgs (St.start msgs) :=
  ⟨fun l hl => by simpa [total, rem, St.start] using hl, fun h => by simp [St.start] at h, fun h => by simp [St.start] at h⟩

theorem inv_run [DecidableEq Id] {msgs : List (Msg Id)} {ls : List Lab} {st st' : St Id} (h : Inv msgs st) (hr : run st ls = some st') : Inv msgs st' ∧ (.lost ∉ ls → total st' = total st) := by
  induction ls generalizing st with
  | nil =>
    simp only [run, List.foldlM_nil, pure, Option.some.injEq] at hr
    subst hr
    exact ⟨h, fun _ => rfl⟩
  | cons l ls ih =>
    simp only [run, List.foldlM_cons, Option.bind_eq_bind, Option.bind_eq_some_iff] at hr
    obtain ⟨st1, h1, h2⟩ := hr
    obtain ⟨i1, t1⟩ := h.step h1
    obtain ⟨i2, t2⟩ := ih i1 h2
    simp only [List.mem_cons, not_or]
    exact ⟨i2, fun hl => (t2 hl.2).trans (t1 (fun e => hl.1 e.symm))⟩

/-- **C161 (partial): a closed channel is complete.** In every run, whatever the relay sends and whatever the consumer does: if the channel was closed, the conversation came to its end and the consumer received exactly its ids, in order. -/
theorem C161_closed_is_complete [DecidableEq Id] {msgs : List (Msg Id)} {ls : List Lab} {st : St Id} (hr : run (St.start msgs) ls = some st) (ho : st.over = true) : conversation msgs = some st.out := by
  obtain ⟨⟨h1, h2, h3⟩, -⟩ := inv_run (inv_start msgs) hr
  obtain ⟨hc, hb, hh⟩ := h2 ho
  apply h1
  obtain ⟨inbox, rd, buf, closed, hold, out, listening, over, crashed⟩ := st
  simp only at hc hb hh h3
  subst hc hb hh
  cases rd with
  | pushing ids o =>
    obtain ⟨rfl, ho⟩ := h3 rfl _ _ rfl
    cases o <;> simp_all [total, rem]
  | _ => simp [total, rem]

/-- **C161 is false: a refusal is never reported.** If the relay refuses (or `Reconcile` fails, or the relay does not come to an end), the channel is never closed, in no run: the function has returned without an error and the consumer waits for ever. -/
theorem C161_refusal_hangs [DecidableEq Id] {msgs : List (Msg Id)} (h : conversation msgs = none) {ls : List Lab} {st : St Id} (hr : run (St.start msgs) ls = some st) : st.over = false := by
  cases ho : st.over with
  | false => rfl
  | true =>
    rw [C161_closed_is_complete hr ho] at h
    cases h

theorem step_recv [DecidableEq Id] {st st' : St Id} (hs : step st .recv = some st') : ∃ m rest, st.crashed = false ∧ st.rd = .idle ∧ st.inbox = m :: rest ∧ st' = handle { st with inbox := rest } m := by
  obtain ⟨inbox, rd, buf, closed, hold, out, listening, over, crashed⟩ := st
  cases crashed with
  | true => simp [step] at hs
  | false =>
    simp only [step, Bool.false_eq_true, if_false] at hs
    split at hs
    · next m rest => exact ⟨m, rest, rfl, rfl, rfl, (Option.some.inj hs).symm⟩
    · cases hs

/-- Auxiliary function of the proofs; models no code. -/
def Rd.left : Rd Id → Nat
  | .idle => 0
  | .pushing ids _ => 3 * ids.length + 1
  | .stuck => 0
  | .gone => 0

/-- Auxiliary function of the proofs; models no code. -/
def St.left (st : St Id) : Nat := actions st.inbox + st.rd.left + 2 * st.buf.length + st.hold.toList.length + (if st.over then 0 else 1)

theorem left_step [DecidableEq Id] {st st' : St Id} {l : Lab} (h1 : l ≠ .lost) (h2 : l ≠ .quit) (hs : step st l = some st') : st'.left < st.left := by
  cases l
  case recv =>
    obtain ⟨m, rest, -, hrd, hin, rfl⟩ := step_recv hs
    cases m <;> simp only [handle] <;> (try split) <;> simp [St.left, actions, Rd.left, hrd, hin] <;> omega
  all_goals obtain ⟨inbox, rd, buf, closed, hold, out, listening, over, crashed⟩ := st
  all_goals simp only [step] at hs
  all_goals (repeat' split at hs)
  all_goals (try simp only [reduceCtorEq, Option.some.injEq] at hs)
  all_goals (try subst hs)
  all_goals simp_all [St.left, Rd.left]
  all_goals omega

theorem left_run [DecidableEq Id] {ls : List Lab} {st st' : St Id} (hl1 : .lost ∉ ls) (hl2 : .quit ∉ ls) (hr : run st ls = some st') : st'.left + ls.length ≤ st.left := by
  induction ls generalizing st with
  | nil =>
    simp only [run, List.foldlM_nil, pure, Option.some.injEq] at hr
    subst hr
    simp
  | cons l ls ih =>
    simp only [run, List.foldlM_cons, Option.bind_eq_bind, Option.bind_eq_some_iff] at hr
    obtain ⟨st1, h1, h2⟩ := hr
    simp only [List.mem_cons, not_or] at hl1 hl2
    have := left_step (fun e => hl1.1 e.symm) (fun e => hl2.1 e.symm) h1
    have := ih hl1.2 hl2.2 h2
    simp
    omega

theorem run_inv [DecidableEq Id] {P : St Id → Prop} {ok : Lab → Prop} (hP : ∀ st l st', P st → ok l → step st l = some st' → P st') {ls : List Lab} {st st' : St Id} (hok : ∀ l ∈ ls, ok l)
    (h : P st) (hr : run st ls = some st') : P st' := by
  induction ls generalizing st with
  | nil =>
    simp only [run, List.foldlM_nil, pure, Option.some.injEq] at hr
    subst hr
    exact h
  | cons l ls ih =>
    simp only [run, List.foldlM_cons, Option.bind_eq_bind, Option.bind_eq_some_iff] at hr
    obtain ⟨st1, h1, h2⟩ := hr
    exact ih (fun x hx => hok x (List.mem_cons_of_mem _ hx)) (hP _ _ _ h (hok l (by simp)) h1) h2

theorem listening_step [DecidableEq Id] {st st' : St Id} {l : Lab} (h : st.listening = true) (hl : l ≠ .quit) (hs : step st l = some st') : st'.listening = true := by
  cases l
  case recv =>
    obtain ⟨m, rest, -, hrd, hin, rfl⟩ := step_recv hs
    cases m <;> simp only [handle] <;> (try split) <;> exact h
  all_goals simp only [step] at hs
  all_goals (repeat' split at hs)
  all_goals (try simp only [reduceCtorEq, Option.some.injEq] at hs)
  all_goals (try subst hs)
  all_goals first | exact h | exact absurd rfl hl

/-- Nothing that crashes the client is to come. -/
def Calm (st : St Id) : Prop := st.crashed = false ∧
  (if st.closed = true then (∀ m ∈ st.inbox, m = .other) else match st.rd with
    | .pushing _ .done => ∀ m ∈ st.inbox, m = .other
    | _ => Quiet st.inbox)

theorem calm_step [DecidableEq Id] {st st' : St Id} {l : Lab} (h : Calm st) (hs : step st l = some st') : Calm st' := by
  obtain ⟨inbox, rd, buf, closed, hold, out, listening, over, crashed⟩ := st
  obtain ⟨h1, h2⟩ := h
  simp only at h1 h2
  subst h1
  cases l
  case recv =>
    obtain ⟨m, rest, -, hrd, hin, rfl⟩ := step_recv hs
    simp only at hrd hin
    subst hrd hin
    cases closed with
    | true =>
      simp only [if_true, List.mem_cons, forall_eq_or_imp] at h2
      obtain ⟨rfl, h2⟩ := h2
      exact ⟨rfl, by simpa [handle] using h2⟩
    | false =>
      simp only [Bool.false_eq_true, if_false] at h2
      cases m with
      | other => exact ⟨rfl, by simpa [handle, Quiet] using h2⟩
      | refusal => exact ⟨rfl, by simpa [handle, Quiet] using h2⟩
      | msg ids o => cases o <;> exact ⟨by simp [handle], by simpa [handle, Quiet] using h2⟩
  all_goals simp only [step] at hs
  all_goals (repeat' split at hs)
  all_goals (try simp only [reduceCtorEq, Option.some.injEq] at hs)
  all_goals (try subst hs)
  all_goals refine ⟨rfl, ?_⟩
  all_goals cases closed <;> (try simp_all) <;> (try exact h2)
  all_goals (rename_i o _; cases o <;> (try simp_all) <;> (try exact h2))

theorem calm_start {msgs : List (Msg Id)} (h : Quiet msgs) : Calm (St.start msgs) := ⟨rfl, by simpa [St.start] using h⟩

/-- **C161 (partial: see `C161_refusal_hangs`): it ends.** If the relay brings the conversation to an end and then sends nothing more to crash the client (C108), the connection stays and the consumer goes on receiving, then whatever the order of the actions: no run is longer than
`actions` says, and a run that cannot go on has closed the channel after the consumer received all ids. -/
theorem C161_ends_partial [DecidableEq Id] {msgs : List (Msg Id)} {l : List Id} (hc : conversation msgs = some l) (hq : Quiet msgs) {ls : List Lab} {st : St Id} (hr : run (St.start msgs) ls = some st)
    (h1 : .lost ∉ ls) (h2 : .quit ∉ ls) :
    ls.length ≤ actions msgs ∧ ((∀ a, a ≠ .lost → a ≠ .quit → step st a = none) → st.over = true ∧ st.out = l) := by
  refine ⟨by have := left_run h1 h2 hr; have hp : 0 < actions st.inbox := Nat.succ_pos _; simp [St.left, St.start, Rd.left] at this; omega, fun hstuck => ?_⟩
  obtain ⟨hinv, htot⟩ := inv_run (inv_start msgs) hr
  have hcalm := run_inv (P := Calm) (ok := fun _ => True) (fun _ _ _ h _ hs => calm_step h hs) (fun _ _ => trivial) (calm_start hq) hr
  have hli := run_inv (P := fun s => s.listening = true) (ok := fun a => a ≠ .quit) (fun _ _ _ h hl hs => listening_step h hl hs) (fun a ha e => h2 (e ▸ ha)) rfl hr
  have ht : total st = some l := by rw [htot h1]; simpa [total, rem, St.start] using hc
  suffices hov : st.over = true by
    refine ⟨hov, ?_⟩
    have := C161_closed_is_complete hr hov
    rw [hc] at this
    exact (Option.some.inj this).symm
  obtain ⟨inbox, rd, buf, closed, hold, out, listening, over, crashed⟩ := st
  obtain ⟨hcr, -⟩ := hcalm
  simp only at hcr hli
  subst hcr hli
  have e1 : hold = none := by
    have := hstuck .deliver (by decide) (by decide)
    cases hold with
    | none => rfl
    | some x => simp [step] at this
  subst e1
  have e2 : buf = [] := by
    have := hstuck .take (by decide) (by decide)
    cases buf with
    | nil => rfl
    | cons x b => simp [step] at this
  subst e2
  have e3 : closed = true := by
    cases closed with
    | true => rfl
    | false =>
      exfalso
      cases rd with
      | idle =>
        cases inbox with
        | nil => simp [total, rem, conversation] at ht
        | cons m rest => exact absurd (hstuck .recv (by decide) (by decide)) (by simp [step])
      | pushing ids o =>
        cases ids with
        | cons x ids => exact absurd (hstuck .push (by decide) (by decide)) (by simp [step])
        | nil => exact absurd (hstuck .fin (by decide) (by decide)) (by cases o <;> simp [step])
      | stuck => simp [total, rem] at ht
      | gone => simp [total, rem] at ht
  subst e3
  have := hstuck .close (by decide) (by decide)
  cases over with
  | true => rfl
  | false => simp [step] at this

/-- **C161 is false: a lost connection or a cancelled context is not noticed.** Once the reader has gone without the final message, the channel is never closed, whatever happens. -/
theorem C161_lost_hangs [DecidableEq Id] {st st' : St Id} (hg : st.rd = .gone) (hc : st.closed = false) (ho : st.over = false) {ls : List Lab} (hr : run st ls = some st') : st'.over = false := by
  refine (run_inv (P := fun s : St Id => s.rd = .gone ∧ s.closed = false ∧ s.over = false) (ok := fun _ => True) ?_ (fun _ _ => trivial) ⟨hg, hc, ho⟩ hr).2.2
  rintro s l s' ⟨h1, h2, h3⟩ - hs
  cases l <;> simp only [step, h1, h2] at hs <;> (repeat' split at hs) <;> (try simp only [reduceCtorEq, Option.some.injEq] at hs) <;> (try subst hs)
  all_goals simp_all

/-- **C161 is false: the goroutine outlives its consumer.** Once the consumer stops receiving while the goroutine has an id for it, that goroutine waits for ever, whatever happens: there is no way to tell it to stop, and no NEG-CLOSE is sent. -/
theorem C161_consumer_gone [DecidableEq Id] {st st' : St Id} (hq : st.listening = false) (hh : st.hold.isSome = true) (ho : st.over = false) {ls : List Lab} (hr : run st ls = some st') : st'.hold = st.hold ∧ st'.over = false := by
  have := run_inv (P := fun s : St Id => s.listening = false ∧ s.hold = st.hold ∧ s.over = false) (ok := fun _ => True) (by
    rintro s l s' ⟨h1, h2, h3⟩ - hs
    obtain ⟨x, hx⟩ := Option.isSome_iff_exists.1 hh
    cases l
    case recv =>
      obtain ⟨m, rest, -, hrd, hin, rfl⟩ := step_recv hs
      cases m <;> simp only [handle] <;> (try split) <;> exact ⟨h1, h2, h3⟩
    all_goals simp only [step, h1, h2] at hs
    all_goals (repeat' split at hs)
    all_goals (try simp only [reduceCtorEq, Option.some.injEq] at hs)
    all_goals (try subst hs)
    all_goals simp_all) (fun _ _ => trivial) ⟨hq, rfl, ho⟩ hr
  exact this.2

/-- A conversation of two messages that ends, and a run of it. -/
example : conversation [.other, .msg [1, 2] .more, .msg [3] .done] = some [1, 2, 3] ∧ Quiet [.other, .msg [1, 2] .more, .msg [3] .done] := ⟨rfl, by simp [Quiet]⟩
example : (run (St.start [.msg [1, 2] .more, .msg [3] .done]) [.recv, .push, .take, .push, .deliver, .fin, .recv, .take, .push, .fin, .deliver, .take, .deliver, .close]).map (fun s => (s.over, s.out)) = some (true, [1, 2, 3]) := by
  decide +kernel

/-- A refused request: the reader is blocked, the consumer waits. -/
example : conversation (Id := Nat) [.refusal] = none ∧ ((run (Id := Nat) (St.start [.refusal]) [.recv]).map fun s => ([Lab.recv, .push, .fin, .lost, .take, .deliver, .close].map fun l => (step s l).isSome, s.over)) =
    some ([false, false, false, false, false, false, false], false) := ⟨rfl, by decide +kernel⟩

/-- The connection is lost before the end; and a consumer stops after the first id. -/
example : ∃ st, run (Id := Nat) (St.start [.msg [1] .more]) [.lost] = some st ∧ st.rd = .gone ∧ st.closed = false ∧ st.over = false := ⟨_, rfl, rfl, rfl, rfl⟩
example : ∃ st, run (Id := Nat) (St.start [.msg [1, 2] .done]) [.recv, .push, .push, .fin, .take, .deliver, .quit, .take] = some st ∧ st.listening = false ∧ st.hold.isSome = true ∧ st.over = false := ⟨_, rfl, rfl, rfl, rfl⟩

end GoNostr.NegFetch
