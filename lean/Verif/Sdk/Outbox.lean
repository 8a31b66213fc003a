import Verif.Base.Num
/-!
# sdk/outbox.go: the relays a user publishes to
-/

set_option autoImplicit false

namespace GoNostr.Sdk

/-- `ostcEntry` (outbox.go:11-15); times are seconds. -/
structure OstcEntry where
  pubkey : Bytes := []
  relays : List Bytes := []
  time : Int := 0

/-- `outboxShortTermCache` (outbox.go:9): one array of 256 entries for the whole process. -/
abbrev Ostc := Nat → OstcEntry

/-- `strconv.ParseUint(s, 16, 8)` of two characters, the error ignored: zero unless both are hex digits. -/
def hexPair (s : Bytes) : Nat :=
  match s with
  | [a, b] => match hexVal a, hexVal b with
    | some x, some y => x.toNat * 16 + y.toNat
    | _, _ => 0
  | _ => 0

/-- outbox.go:29 -/
def fallbackRelays : List Bytes := [b! "wss://relay.damus.io", b! "wss://nos.lol"]

/-- `FetchOutboxRelays` (outbox.go:21-47). `top` is what `sys.Hints.TopN(pubkey, 6)` returns after the relay list was
fetched. The two minutes are compared in whole seconds. -/
def fetchOutbox (cache : Ostc) (now : Int) (pubkey : Bytes) (n : Int) (top : List Bytes) : Out (List Bytes × Ostc) :=
  match goSlice pubkey 12 14 with
  | .panic => .panic
  | .val two =>
    let i := hexPair two
    if (cache i).pubkey = pubkey ∧ (cache i).time + 120 > now then .val ((cache i).relays, cache)
    else if top = [] then .val (fallbackRelays, cache)
    else
      let cache' : Ostc := fun j => if j = i then ⟨pubkey, top, now⟩ else cache j
      if (top.length : Int) > n then
        match goSlice top 0 n with
        | .panic => .panic
        | .val l => .val (l, cache')
      else .val (top, cache')

/-- A relay of a kind 10002 list (relay list items, see `parseRelayFromKind10002`). -/
structure ListedRelay where
  url : Bytes
  inbox : Bool
  outbox : Bool

/-- `FetchInboxRelays` (outbox.go:51-65): `make` panics on a negative capacity. -/
def fetchInbox (items : List ListedRelay) (n : Int) : Out (List Bytes) :=
  if items.length = 0 ∨ items.length > 10 then .val fallbackRelays
  else if n < 0 then .panic
  else .val ((items.filter (·.inbox)).map (·.url))

/-- `FetchWriteRelays` (outbox.go:72-83). -/
def fetchWrite (items : List ListedRelay) : List Bytes := (items.filter (·.outbox)).map (·.url)

/-! ## C112 -/

/-- One call: when, for whom, how many, and what the hints database of the system that was called answers. -/
structure OutboxCall where
  now : Int
  pubkey : Bytes
  n : Int
  top : List Bytes

/-- The cache and the answers after a history of calls, of any number of systems in the process. A call that panics leaves
the cache alone. (A negative `n` panics after the entry was written; the histories here have `0 ≤ n`.) -/
inductive Outboxes : List OutboxCall → Ostc → Prop
  | start : Outboxes [] (fun _ => {})
  | call {h : List OutboxCall} {c c' : Ostc} (k : OutboxCall) (l : List Bytes) : Outboxes h c →
      fetchOutbox c k.now k.pubkey k.n k.top = .val (l, c') → Outboxes (h ++ [k]) c'

/-- Every entry of the cache comes from a call for its own key. -/
theorem outboxes_entry {h : List OutboxCall} {c : Ostc} (hr : Outboxes h c) (i : Nat) (hp : (c i).pubkey ≠ []) :
    ∃ k ∈ h, k.pubkey = (c i).pubkey ∧ k.top = (c i).relays ∧ k.now = (c i).time ∧ k.top ≠ [] := by
  induction hr generalizing i with
  | start => simp at hp
  | @call h c c' k l hr hk ih =>
    have old : c' i = c i → ∃ k' ∈ h ++ [k], k'.pubkey = (c' i).pubkey ∧ k'.top = (c' i).relays ∧ k'.now = (c' i).time ∧ k'.top ≠ [] := by
      intro he
      rw [he] at hp ⊢
      obtain ⟨k', hk', h'⟩ := ih i hp
      exact ⟨k', by simp [hk'], h'⟩
    unfold fetchOutbox at hk
    split at hk
    · cases hk
    · rename_i two _
      simp only at hk
      split at hk
      · simp only [Out.val.injEq, Prod.mk.injEq] at hk
        exact old (by rw [hk.2])
      · split at hk
        · simp only [Out.val.injEq, Prod.mk.injEq] at hk
          exact old (by rw [hk.2])
        · rename_i hne
          have hc : c' = fun j => if j = hexPair two then ⟨k.pubkey, k.top, k.now⟩ else c j := by
            split at hk
            · split at hk
              · cases hk
              · simp only [Out.val.injEq, Prod.mk.injEq] at hk; exact hk.2.symm
            · simp only [Out.val.injEq, Prod.mk.injEq] at hk; exact hk.2.symm
          by_cases hi : i = hexPair two
          · refine ⟨k, by simp, ?_⟩
            simp [hc, hi, hne]
          · exact old (by simp [hc, hi])

theorem goSlice_take {α : Type} (l : List α) (n : Int) (h0 : 0 ≤ n) (h1 : n ≤ l.length) : goSlice l 0 n = .val (l.take n.toNat) := by
  unfold goSlice
  simp [h0, h1]

/-- **C112 (partial).** Whatever calls were made before, the relays `FetchOutboxRelays` returns are the two fallback relays
(only if the hints database knows none), or the first `n` the hints database ranks for this key now, or all it ranked for
the same key at a call less than two minutes ago. Missing: in the last case `n` and the present ranking are ignored, see
`C112_n_ignored`; keys of fewer than fourteen characters, see `C112_short_key_panics`. -/
theorem C112_source_partial {h : List OutboxCall} {c c' : Ostc} (hr : Outboxes h c) (now : Int) (pubkey : Bytes) (n : Int) (hn : 0 ≤ n)
    (top l : List Bytes) (hk : fetchOutbox c now pubkey n top = .val (l, c')) :
    (l = fallbackRelays ∧ top = []) ∨ (l = top.take n.toNat ∧ top ≠ []) ∨
    (∃ k ∈ h, k.pubkey = pubkey ∧ l = k.top ∧ now < k.now + 120) := by
  unfold fetchOutbox at hk
  split at hk
  · cases hk
  · rename_i two htwo
    simp only at hk
    split at hk
    · rename_i hhit
      simp only [Out.val.injEq, Prod.mk.injEq] at hk
      right; right
      have hne : (c (hexPair two)).pubkey ≠ [] := by
        rw [hhit.1]
        rintro rfl
        simp [goSlice] at htwo
      obtain ⟨k, hk1, hk2, hk3, hk4, _⟩ := outboxes_entry hr _ hne
      exact ⟨k, hk1, hk2.trans hhit.1, hk.1.symm.trans hk3.symm, by rw [hk4]; exact hhit.2⟩
    · split at hk
      · rename_i ht
        simp only [Out.val.injEq, Prod.mk.injEq] at hk
        exact Or.inl ⟨hk.1.symm, ht⟩
      · rename_i ht
        right; left
        refine ⟨?_, ht⟩
        split at hk
        · rename_i hlen
          rw [goSlice_take top n hn (by omega)] at hk
          simp only [Out.val.injEq, Prod.mk.injEq] at hk
          exact hk.1.symm
        · rename_i hlen
          simp only [Out.val.injEq, Prod.mk.injEq] at hk
          rw [← hk.1, List.take_of_length_le (by omega)]

/-- The full C112 is false: within two minutes of a call for a key, every call for it — of whatever system, with whatever
hints — returns all relays of the first call's ranking, however few are asked for. -/
theorem C112_n_ignored {c c1 : Ostc} (t t' : Int) (pubkey : Bytes) (n n' : Int) (top top' l : List Bytes) (ht : top ≠ [])
    (hmiss : ∀ i, (c i).pubkey ≠ pubkey) (h1 : fetchOutbox c t pubkey n top = .val (l, c1)) (htime : t' < t + 120) :
    fetchOutbox c1 t' pubkey n' top' = .val (top, c1) := by
  unfold fetchOutbox at h1 ⊢
  split at h1
  · cases h1
  · rename_i two htwo
    simp only [hmiss, false_and, if_false, if_neg ht] at h1
    have hc : c1 = fun j => if j = hexPair two then ⟨pubkey, top, t⟩ else c j := by
      split at h1
      · split at h1
        · cases h1
        · simp only [Out.val.injEq, Prod.mk.injEq] at h1; exact h1.2.symm
      · simp only [Out.val.injEq, Prod.mk.injEq] at h1; exact h1.2.symm
    have he : c1 (hexPair two) = ⟨pubkey, top, t⟩ := by rw [hc]; simp
    simp only [he, true_and]
    rw [if_pos (by omega)]

/-- A value of the examples. -/
def someKey : Bytes := b! "3bf0c63fcb93463407af97a5e5ee64fa883d107ef9e558472c4eb9aaaefa459d"

/-- Not vacuous: two relays are asked for and returned, then one is asked for and all three come. -/
example : (match fetchOutbox (fun _ => {}) 1000 someKey 2 [b! "a", b! "b", b! "c"] with
    | .val (l, c) => decide (l = [b! "a", b! "b"]) && (match fetchOutbox c 1060 someKey 1 [b! "d"] with
      | .val (l', _) => decide (l' = [b! "a", b! "b", b! "c"])
      | .panic => false)
    | .panic => false) = true := by decide +kernel

/-- When the hints database knows no relay, two are returned even if fewer were asked for. -/
theorem C112_fallback_ignores_n (c : Ostc) (now n : Int) (pubkey : Bytes) (h : 14 ≤ pubkey.length) (hmiss : ∀ i, (c i).pubkey ≠ pubkey) :
    fetchOutbox c now pubkey n [] = .val (fallbackRelays, c) := by
  unfold fetchOutbox
  have : goSlice pubkey 12 14 = .val ((pubkey.drop 12).take 2) := by
    unfold goSlice
    rw [if_pos (by omega)]
    rfl
  simp only [this, hmiss, false_and, if_false, if_true]

/-- A key of fewer than fourteen characters, the empty one for example, makes it panic. -/
theorem C112_short_key_panics (c : Ostc) (now n : Int) (pubkey : Bytes) (top : List Bytes) (h : pubkey.length < 14) :
    fetchOutbox c now pubkey n top = .panic := by
  unfold fetchOutbox
  have : goSlice pubkey 12 14 = .panic := by
    unfold goSlice
    rw [if_neg (by omega)]
  rw [this]

/-- **C112 (partial).** It panics on nothing else, if a number of relays is asked for that is not negative. -/
theorem C112_no_other_panic (c : Ostc) (now n : Int) (pubkey : Bytes) (top : List Bytes) (hn : 0 ≤ n)
    (h : fetchOutbox c now pubkey n top = .panic) : pubkey.length < 14 := by
  by_cases hl : pubkey.length < 14
  · exact hl
  · exfalso
    unfold fetchOutbox at h
    have : goSlice pubkey 12 14 = .val ((pubkey.drop 12).take 2) := by
      unfold goSlice
      rw [if_pos (by omega)]
      rfl
    simp only [this] at h
    split at h
    · cases h
    · split at h
      · cases h
      · split at h
        · rename_i hlen
          rw [goSlice_take top n hn (by omega)] at h
          cases h
        · cases h

/-- The relays for notifications: every inbox relay of the list, in order, whatever number was asked for; two fixed relays
when the list is empty or has more than ten relays. The write relays are always exactly those of the list. -/
theorem C112_listed_partial (items : List ListedRelay) (n : Int) (hn : 0 ≤ n) :
    fetchInbox items n = .val (if items = [] ∨ 10 < items.length then fallbackRelays else (items.filter (·.inbox)).map (·.url)) ∧
    ∀ u, u ∈ fetchWrite items ↔ ∃ r ∈ items, r.outbox = true ∧ r.url = u := by
  constructor
  · unfold fetchInbox
    by_cases h : items = [] ∨ 10 < items.length
    · rw [if_pos h, if_pos (by simpa using h)]
    · rw [if_neg h, if_neg (by simpa using h), if_neg (by omega)]
  · intro u
    simp [fetchWrite, and_assoc]

/-- Not vacuous: one relay is asked for, two are returned. -/
example : fetchInbox [⟨b! "a", true, false⟩, ⟨b! "b", true, true⟩] 1 = .val [b! "a", b! "b"] := by decide +kernel

end GoNostr.Sdk
