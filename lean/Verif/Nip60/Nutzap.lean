import Verif.Nip60.Pay
import Verif.Nips.Codecs
/-!
# C85, C158: nutzaps (nip61/nip61.go)

`SendNutzap` reads the recipient's `Info` from their kind 10019 event and calls `Wallet.Send` with `WithP2PK(info.PublicKey)` (nip61.go:35-42, 65), or `SendExternal`. Finding the event is
`QuerySingle` (C153), publishing `PublishMany`.
-/

set_option autoImplicit false

namespace GoNostr.Nip60

/-- The send in `SendNutzap` (nip61/nip61.go:35-65) for one of the recipient's mints; `none` means nutzaps are not accepted. -/
def nutzapSend (env : Codec.InfoEnv) (parse : Bytes → Option Bytes) (w : World) (tokens : List Token) (amount : Nat) (mint : Bytes) (infoEvent : List (List Bytes)) :
    Option (Res SendErr (List Proof) × List Token) :=
  let info := Codec.parseInfo env ⟨[], [], []⟩ infoEvent
  if info.mints.length = 0 ∨ info.pubkey = [] then none
  else some (send w tokens amount mint (withP2PK parse info.pubkey))

/-- **C85 is false of nutzaps.** `ParseEvent` only accepts 32-byte keys and `WithP2PK` only 33 or 65 bytes: whatever the recipient's event says, the proofs put into the nutzap event are not
locked, so whoever sees the event can take them. -/
theorem C85_nutzap_never_locked (env : Codec.InfoEnv) (hpub : ∀ b, env.parsePub b = true → b.length = 32)
    (parse : Bytes → Option Bytes) (hparse : ∀ b k, parse b = some k → b.length = 33 ∨ b.length = 65)
    (w : World) (hw : Honest w) (tokens : List Token) (amount : Nat) (mint : Bytes) (infoEvent : List (List Bytes)) (out : List Proof) (tokens' : List Token)
    (h : nutzapSend env parse w tokens amount mint infoEvent = some (.ok out, tokens')) : ∀ x ∈ out, x.lock = none := by
  unfold nutzapSend at h
  simp only at h
  split at h
  · cases h
  · next hn =>
    have hk := Codec.infoKey_valid env infoEvent { (⟨[], [], []⟩ : Codec.Info) with mints := [] } (.inl rfl)
    have hne : (Codec.parseInfo env ⟨[], [], []⟩ infoEvent).pubkey ≠ [] := fun hh => hn (.inr hh)
    have hv := hk.resolve_left hne
    injection h with h
    exact (C85_nostr_key_not_locked parse hparse env.parsePub hpub w hw tokens amount mint _ hv).2 out tokens' h

/-- A nutzap that goes out. -/
example : nutzapSend ⟨id, fun b => b.length == 32⟩ (fun b => if b.length = 33 then some b else none) (toyWorld 0) [⟨b! "m", [⟨8, b! "k", none⟩], some (b! "id")⟩] 4 (b! "m")
    [[b! "mint", b! "m"], [b! "pubkey", hexEnc (List.replicate 32 7)]] =
    some (.ok [⟨4, b! "k", none⟩], [⟨b! "m", [⟨4, b! "k", none⟩], some (b! "new")⟩]) := by decide +kernel

/-! ## C158: the whole of `SendNutzap` -/

/-- `getEligibleTokensWeHave` (nip61.go:111-133): the mints in the order they are yielded; `have_` is what was found so far at each of their mints. -/
def eligibleMints (theirs : List Bytes) (amount : Nat) : (Bytes → Nat) → List Token → List Bytes
  | _, [] => []
  | have_, t :: ts =>
    if t.mint ∈ theirs then
      let h := addU (have_ t.mint) (amountOf t.proofs)
      let rest := eligibleMints theirs amount (fun m => if m = t.mint then h else have_ m) ts
      if h > addU (mulU amount 101 / 100) 2 then t.mint :: rest else rest
    else eligibleMints theirs amount have_ ts

/-- The loop over them (nip61.go:64-82): the first send that works. `w` is the world at each attempt. -/
def firstSend (w : Nat → PayWorld) (amount : Nat) (lock : Option Bytes) : Nat → List Token → List Bytes → Out (Option (Bytes × List Proof) × List Token)
  | _, tokens, [] => .val (none, tokens)
  | k, tokens, m :: ms => match send (w k).toWorld tokens amount m lock with
    | (.panic, _) => .panic
    | (.ok ps, t) => .val (some (m, ps), t)
    | (.err _, t) => firstSend w amount lock (k + 1) t ms

/-- The loop over the recipient's mints (nip61.go:85-106): no quote means the next mint, and so does any error that has the words "generate mint quote" in it (`says`: errors quote what
mints answer). The result says whether it fell through. -/
def firstExternal (w : Nat → PayWorld) (says : Nat → Bool) (amount : Nat) : Nat → List Token → List Bytes → Out (Option (Bytes × List Proof) × List Token)
  | _, tokens, [] => .val (none, tokens)
  | k, tokens, m :: ms =>
    if (w k).mintQuote 0 m amount = none then firstExternal w says amount (k + 1) tokens ms
    else match sendExternal (w k) tokens m amount [] with
      | (.panic, _) => .panic
      | (.ok ps, t) => .val (some (m, ps), t)
      | (.err _, t) => if says k then firstExternal w says amount (k + 1) t ms else .val (none, t)

/-- What `SendNutzap` does not decide itself: reading infos, parsing keys, the worlds of the first and the second loop, errors that look like a refused quote, the recipient's read relays,
the JSON of a proof, whether the signer signs. -/
structure ZapEnv where
  info : Codec.InfoEnv
  parse : Bytes → Option Bytes
  w : Nat → PayWorld
  x : Nat → PayWorld
  says : Nat → Bool
  readRelays : Bytes → List Bytes
  render : Proof → Bytes
  signs : Bool

/-- A nutzap on its way: tags and relays. -/
structure Zap where
  tags : List (List Bytes)
  relays : List Bytes
  deriving DecidableEq, Repr

/-- The tags (nip61.go:58-61, 71-75). -/
def zapTags (env : ZapEnv) (target eventId mint : Bytes) (ps : List Proof) : List (List Bytes) :=
  [b! "p", target] :: (if eventId ≠ [] then [[b! "e", eventId]] else []) ++ [b! "u", mint] :: ps.map (fun p => [b! "proof", env.render p])

/-- Where it is sent (nip61.go:44-50). -/
def zapRelays (env : ZapEnv) (info : Codec.Info) (target : Bytes) : List Bytes := if info.relays.length = 0 then env.readRelays target else info.relays

theorem zapRelays_eq (env : ZapEnv) (info : Codec.Info) (target : Bytes) : zapRelays env info target = if info.relays = [] then env.readRelays target else info.relays := by
  unfold zapRelays
  by_cases hx : info.relays = [] <;> simp [hx]

/-- `SendNutzap` (nip61.go:18-109): what is published, if anything (`none` is an error), and the wallet's tokens afterwards. `infoEvent` is what `QuerySingle` found. The parts that
sign and publish are the same after either loop. -/
def sendNutzap (env : ZapEnv) (tokens : List Token) (infoEvent : Option (List (List Bytes))) (target eventId : Bytes) (amount : Nat) : Out (Option Zap × List Token) :=
  match infoEvent with
  | none => .val (none, tokens)
  | some tags =>
    let info := Codec.parseInfo env.info ⟨[], [], []⟩ tags
    if info.mints.length = 0 ∨ info.pubkey = [] then .val (none, tokens)
    else
      if (zapRelays env info target).length = 0 then .val (none, tokens)
      else do
        let (got, t) ← firstSend env.w amount (withP2PK env.parse info.pubkey) 0 tokens (eligibleMints info.mints amount (fun _ => 0) tokens)
        let (got, t) ← (match got with
          | some g => Out.val (some g, t)
          | none => firstExternal env.x env.says amount 0 t info.mints)
        match got with
        | none => return (none, t)
        | some (m, ps) => if env.signs then return (some ⟨zapTags env target eventId m ps, zapRelays env info target⟩, t) else return (none, t)

theorem eligible_sub (theirs : List Bytes) (amount : Nat) : ∀ (ts : List Token) (f : Bytes → Nat), ∀ m ∈ eligibleMints theirs amount f ts, m ∈ theirs ∧ ∃ t ∈ ts, t.mint = m
  | [], _, m, h => by simp [eligibleMints] at h
  | t :: ts, f, m, h => by
    unfold eligibleMints at h
    split at h
    · next ht =>
      simp only at h
      split at h
      · rcases List.mem_cons.1 h with rfl | h
        · exact ⟨ht, t, List.mem_cons_self, rfl⟩
        · obtain ⟨h1, t', h2, h3⟩ := eligible_sub theirs amount ts _ m h
          exact ⟨h1, t', List.mem_cons_of_mem _ h2, h3⟩
      · obtain ⟨h1, t', h2, h3⟩ := eligible_sub theirs amount ts _ m h
        exact ⟨h1, t', List.mem_cons_of_mem _ h2, h3⟩
    · obtain ⟨h1, t', h2, h3⟩ := eligible_sub theirs amount ts _ m h
      exact ⟨h1, t', List.mem_cons_of_mem _ h2, h3⟩

/-- What the tokens hold at a mint. -/
def heldAt (tokens : List Token) (mint : Bytes) : Nat := total (proofsOf tokens mint)

theorem heldAt_cons (t : Token) (ts : List Token) (m : Bytes) : heldAt (t :: ts) m = (if t.mint = m then total t.proofs else 0) + heldAt ts m := by
  unfold heldAt proofsOf
  by_cases h : t.mint = m <;> simp [h, total]

theorem eligible_iff (theirs : List Bytes) (amount : Nat) (ha : amount * 101 < 18446744073709551516) (m : Bytes) (hm : m ∈ theirs) : ∀ (ts : List Token) (f : Bytes → Nat),
    f m + heldAt ts m < 18446744073709551616 → f m ≤ amount * 101 / 100 + 2 →
    (m ∈ eligibleMints theirs amount f ts ↔ amount * 101 / 100 + 2 < f m + heldAt ts m)
  | [], f, hb, hf => by simp [eligibleMints, heldAt, proofsOf, total]; omega
  | t :: ts, f, hb, hf => by
    have ht : addU (mulU amount 101 / 100) 2 = amount * 101 / 100 + 2 := by unfold addU mulU; rw [Nat.mod_eq_of_lt (by omega : amount * 101 < _)]; exact Nat.mod_eq_of_lt (by omega)
    rw [heldAt_cons] at hb ⊢
    unfold eligibleMints
    by_cases h : t.mint = m
    · subst h
      rw [if_pos hm]
      simp only [if_true] at hb ⊢
      have hh : addU (f t.mint) (amountOf t.proofs) = f t.mint + total t.proofs := by unfold addU amountOf; omega
      rw [ht, hh]
      split
      · next hgt =>
        constructor
        · intro _; omega
        · intro _; exact List.mem_cons_self
      · next hle =>
        rw [eligible_iff theirs amount ha _ hm ts _ (by simp only [if_true]; omega) (by simp only [if_true]; omega)]
        simp only [if_true]
        omega
    · simp only [h, if_false, Nat.zero_add] at hb ⊢
      split
      · have ih := eligible_iff theirs amount ha m hm ts (fun x => if x = t.mint then addU (f t.mint) (amountOf t.proofs) else f x)
        simp only [if_false, Ne.symm h] at ih
        have ih := ih hb hf
        split
        · rw [List.mem_cons, ih]
          constructor
          · rintro (hx | hx)
            · exact absurd hx.symm h
            · exact hx
          · exact .inr
        · exact ih
      · exact eligible_iff theirs amount ha m hm ts f hb hf

/-- **C158 (which mints are tried).** Exactly the recipient's mints at which the wallet holds more than the amount and one part in a hundred and two more. -/
theorem C158_tried (theirs : List Bytes) (tokens : List Token) (amount : Nat) (ha : amount * 101 < 18446744073709551516) (m : Bytes) (hb : heldAt tokens m < 18446744073709551616) :
    m ∈ eligibleMints theirs amount (fun _ => 0) tokens ↔ m ∈ theirs ∧ amount * 101 / 100 + 2 < heldAt tokens m := by
  by_cases hm : m ∈ theirs
  · rw [eligible_iff theirs amount ha m hm tokens _ (by simpa using hb) (by omega)]
    simp [hm]
  · simp only [hm, false_and, iff_false]
    exact fun h => hm (eligible_sub _ _ _ _ _ h).1

theorem firstSend_ok {w : Nat → PayWorld} {amount : Nat} {lock : Option Bytes} : ∀ {ms : List Bytes} {k : Nat} {tokens : List Token} {got : Option (Bytes × List Proof)} {t : List Token},
    firstSend w amount lock k tokens ms = .val (got, t) →
    (∀ m ps, got = some (m, ps) → m ∈ ms ∧ ∃ j, send (w j).toWorld tokens amount m lock = (.ok ps, t)) ∧ (got = none → t = tokens ∧ ∀ (i : Nat) m, ms[i]? = some m →
      ∃ e, (send (w (k + i)).toWorld tokens amount m lock).1 = .err e)
  | [], k, tokens, got, t, h => by
    simp only [firstSend, Out.val.injEq, Prod.mk.injEq] at h
    obtain ⟨rfl, rfl⟩ := h
    simp
  | m :: ms, k, tokens, got, t, h => by
    unfold firstSend at h
    split at h
    · cases h
    · next ps t' hs =>
      simp only [Out.val.injEq, Prod.mk.injEq] at h
      obtain ⟨rfl, rfl⟩ := h
      refine ⟨?_, by simp⟩
      rintro m' ps' ⟨⟩
      exact ⟨List.mem_cons_self, k, hs⟩
    · next e t' hs =>
      have hk : t' = tokens := by
        have := C82_error_keeps_tokens (w k).toWorld tokens amount m lock (by rw [hs]; simp)
        rw [hs] at this
        exact this
      subst hk
      obtain ⟨h1, h2⟩ := firstSend_ok h
      refine ⟨fun m' ps' hg => ?_, fun hg => ⟨(h2 hg).1, ?_⟩⟩
      · obtain ⟨h3, h4⟩ := h1 m' ps' hg
        exact ⟨List.mem_cons_of_mem _ h3, h4⟩
      · intro i m' hm'
        cases i with
        | zero =>
          simp only [List.getElem?_cons_zero, Option.some.injEq] at hm'
          subst hm'
          exact ⟨e, by rw [Nat.add_zero, hs]⟩
        | succ i =>
          rw [List.getElem?_cons_succ] at hm'
          have := (h2 hg).2 i m' hm'
          rwa [Nat.add_assoc, Nat.add_comm 1 i] at this

theorem firstExternal_ok {w : Nat → PayWorld} {says : Nat → Bool} {amount : Nat} : ∀ {ms : List Bytes} {k : Nat} {tokens : List Token} {m : Bytes} {ps : List Proof} {t : List Token},
    firstExternal w says amount k tokens ms = .val (some (m, ps), t) → m ∈ ms ∧ ∃ j tokens', sendExternal (w j) tokens' m amount [] = (.ok ps, t)
  | [], k, tokens, m, ps, t, h => by simp [firstExternal] at h
  | m' :: ms, k, tokens, m, ps, t, h => by
    unfold firstExternal at h
    split at h
    · obtain ⟨h1, h2⟩ := firstExternal_ok h
      exact ⟨List.mem_cons_of_mem _ h1, h2⟩
    · split at h
      · cases h
      · next hs =>
        simp only [Out.val.injEq, Prod.mk.injEq, Option.some.injEq] at h
        obtain ⟨⟨rfl, rfl⟩, rfl⟩ := h
        exact ⟨List.mem_cons_self, k, tokens, hs⟩
      · split at h
        · obtain ⟨h1, h2⟩ := firstExternal_ok h
          exact ⟨List.mem_cons_of_mem _ h1, h2⟩
        · simp at h

theorem firstExternal_none {w : Nat → PayWorld} {says : Nat → Bool} {amount : Nat} : ∀ {ms : List Bytes} {k : Nat} {tokens : List Token},
    (∀ (i : Nat) m, ms[i]? = some m → (w (k + i)).mintQuote 0 m amount = none) → firstExternal w says amount k tokens ms = .val (none, tokens)
  | [], k, tokens, _ => rfl
  | m :: ms, k, tokens, h => by
    have h0 := h 0 m rfl
    rw [Nat.add_zero] at h0
    rw [firstExternal, if_pos h0]
    refine firstExternal_none (fun i m' hm' => ?_)
    have := h (i + 1) m' (by rwa [List.getElem?_cons_succ])
    rwa [show k + (i + 1) = k + 1 + i by omega] at this

/-- What a published nutzap is. -/
theorem sendNutzap_ok {env : ZapEnv} {tokens : List Token} {infoEvent : Option (List (List Bytes))} {target eventId : Bytes} {amount : Nat} {z : Zap} {t : List Token}
    (h : sendNutzap env tokens infoEvent target eventId amount = .val (some z, t)) :
    ∃ tags info m ps, infoEvent = some tags ∧ info = Codec.parseInfo env.info ⟨[], [], []⟩ tags ∧ info.pubkey ≠ [] ∧ m ∈ info.mints ∧
      z.tags = zapTags env target eventId m ps ∧ z.relays = (if info.relays = [] then env.readRelays target else info.relays) ∧ z.relays ≠ [] ∧ env.signs = true ∧
      ((∃ j, send (env.w j).toWorld tokens amount m (withP2PK env.parse info.pubkey) = (.ok ps, t)) ∨ ∃ j tokens', sendExternal (env.x j) tokens' m amount [] = (.ok ps, t)) := by
  unfold sendNutzap at h
  cases infoEvent with
  | none => simp at h
  | some tags =>
    simp only at h
    generalize hi : Codec.parseInfo env.info ⟨[], [], []⟩ tags = info at h
    split at h
    · simp at h
    · next hn =>
      split at h
      · simp at h
      · next hr =>
        rw [zapRelays_eq] at h hr
        cases hf : firstSend env.w amount (withP2PK env.parse info.pubkey) 0 tokens (eligibleMints info.mints amount (fun _ => 0) tokens) with
        | panic => rw [hf] at h; cases h
        | val r =>
          obtain ⟨got, t1⟩ := r
          rw [hf] at h
          simp only [Out.val_bind] at h
          obtain ⟨f1, f2⟩ := firstSend_ok hf
          have hne : (if info.relays = [] then env.readRelays target else info.relays) ≠ [] := fun hx => hr (by rw [hx]; rfl)
          have hkey : info.pubkey ≠ [] := fun hx => hn (.inr hx)
          cases got with
          | some g =>
            obtain ⟨m, ps⟩ := g
            simp only [Out.val_bind] at h
            split at h
            · next hs =>
              simp only [Out.pure_eq, Out.val.injEq, Prod.mk.injEq, Option.some.injEq] at h
              obtain ⟨rfl, rfl⟩ := h
              obtain ⟨g1, g2⟩ := f1 m ps rfl
              exact ⟨tags, info, m, ps, rfl, hi.symm, hkey, (eligible_sub _ _ _ _ _ g1).1, rfl, rfl, hne, hs, .inl g2⟩
            · simp [Out.pure_eq] at h
          | none =>
            simp only at h
            cases he : firstExternal env.x env.says amount 0 t1 info.mints with
            | panic => rw [he] at h; cases h
            | val r =>
              obtain ⟨got, t2⟩ := r
              rw [he] at h
              simp only [Out.val_bind] at h
              cases got with
              | none => simp [Out.pure_eq] at h
              | some g =>
                obtain ⟨m, ps⟩ := g
                simp only at h
                split at h
                · next hs =>
                  simp only [Out.pure_eq, Out.val.injEq, Prod.mk.injEq, Option.some.injEq] at h
                  obtain ⟨rfl, rfl⟩ := h
                  obtain ⟨g1, g2⟩ := firstExternal_ok he
                  exact ⟨tags, info, m, ps, rfl, hi.symm, hkey, g1, rfl, rfl, hne, hs, .inr g2⟩
                · simp [Out.pure_eq] at h

/-- **C158.** A nutzap that is published names its recipient, the event it is for (if there is one), one of the mints the recipient accepts and the proofs; the proofs are worth exactly the
amount (with mints that do what they promise, and amounts that do not wrap); it goes to the relays the recipient asks for or, if they name none, to their read relays. -/
theorem C158_published (env : ZapEnv) (tokens : List Token) (infoEvent : Option (List (List Bytes))) (target eventId : Bytes) (amount : Nat) (z : Zap) (t : List Token)
    (h : sendNutzap env tokens infoEvent target eventId amount = .val (some z, t))
    (hw : ∀ j, Honest (env.w j).toWorld) (quoted : Nat → Bytes → Bytes → Nat) (hx : ∀ j, HonestMint (env.x j) (quoted j)) (hs : ∀ j a, ((env.x j).split a).sum = a)
    (hb : ∀ j p fee m, getProofs (env.w j).keysets amount m [] tokens = .ok (p, fee) → total p.proofs + fee < 18446744073709551616) :
    ∃ tags info mint proofs, infoEvent = some tags ∧ info = Codec.parseInfo env.info ⟨[], [], []⟩ tags ∧ mint ∈ info.mints ∧ total proofs = amount ∧
      z.tags = [b! "p", target] :: ((if eventId = [] then [] else [[b! "e", eventId]]) ++ [b! "u", mint] :: proofs.map (fun p => [b! "proof", env.render p])) ∧
      z.relays ≠ [] ∧ z.relays = (if info.relays = [] then env.readRelays target else info.relays) := by
  obtain ⟨tags, info, m, ps, h1, h2, h3, h4, h5, h6, h7, h8, h9⟩ := sendNutzap_ok h
  refine ⟨tags, info, m, ps, h1, h2, h4, ?_, ?_, h7, h6⟩
  · rcases h9 with ⟨j, hj⟩ | ⟨j, tk, hj⟩
    · obtain ⟨p, fee, change, g1, -, -, -, -, g2⟩ := send_ok (hw j) hj
      exact (g2 (hb j p fee m g1)).1
    · exact (C124_send_external (env.x j) (quoted j) (hx j) (hs j) tk t m amount [] ps hj).1
  · rw [h5]
    unfold zapTags
    by_cases he : eventId = [] <;> simp [he]

/-- **C158 (whom it is not sent to).** Without an info event, without a mint or key in it, or without a relay to send to, nothing is sent and the wallet stays as it is. -/
theorem C158_not_accepted (env : ZapEnv) (tokens : List Token) (infoEvent : Option (List (List Bytes))) (target eventId : Bytes) (amount : Nat)
    (h : ∀ tags, infoEvent = some tags → (Codec.parseInfo env.info ⟨[], [], []⟩ tags).mints = [] ∨ (Codec.parseInfo env.info ⟨[], [], []⟩ tags).pubkey = [] ∨
      ((Codec.parseInfo env.info ⟨[], [], []⟩ tags).relays = [] ∧ env.readRelays target = [])) :
    sendNutzap env tokens infoEvent target eventId amount = .val (none, tokens) := by
  unfold sendNutzap
  cases infoEvent with
  | none => rfl
  | some tags =>
    simp only
    rcases h tags rfl with h | h | ⟨h, h'⟩
    · rw [if_pos (.inl (by rw [h]; rfl))]
    · rw [if_pos (.inr h)]
    · split
      · rfl
      · rw [if_pos (by simp [zapRelays_eq, h, h'])]

/-- **C158 (errors, partial).** If the signer signs and no mint gives a quote, an error means that the wallet is as it was. Missing: both provisos (`C158_signing_loses`, `C158_paid_twice`). -/
theorem C158_error_partial (env : ZapEnv) (hsig : env.signs = true) (tokens t : List Token) (infoEvent : Option (List (List Bytes))) (target eventId : Bytes) (amount : Nat)
    (hq : ∀ k m, (env.x k).mintQuote 0 m amount = none) (h : sendNutzap env tokens infoEvent target eventId amount = .val (none, t)) : t = tokens := by
  unfold sendNutzap at h
  cases infoEvent with
  | none => simp at h; exact h.symm
  | some tags =>
    simp only at h
    generalize Codec.parseInfo env.info ⟨[], [], []⟩ tags = info at h
    split at h
    · simp at h; exact h.symm
    · split at h
      · simp at h; exact h.symm
      · cases hf : firstSend env.w amount (withP2PK env.parse info.pubkey) 0 tokens (eligibleMints info.mints amount (fun _ => 0) tokens) with
        | panic => rw [hf] at h; cases h
        | val r =>
          obtain ⟨got, t1⟩ := r
          rw [hf] at h
          simp only [Out.val_bind] at h
          obtain ⟨f1, f2⟩ := firstSend_ok hf
          cases got with
          | some g =>
            obtain ⟨m, ps⟩ := g
            simp [hsig, Out.pure_eq] at h
          | none =>
            obtain ⟨rfl, -⟩ := f2 rfl
            simp only at h
            rw [firstExternal_none (fun i m _ => hq _ m)] at h
            simp [Out.pure_eq] at h
            exact h.symm

/-- **C158 (what the wallet holds is used).** If the wallet holds more than the amount, a hundredth and two at some mint of the recipient, where a send works whenever it is tried, then a nutzap
goes out without a Lightning payment - if no other send crashes. -/
theorem C158_from_own_tokens (env : ZapEnv) (hsig : env.signs = true) (tokens : List Token) (tags : List (List Bytes)) (target eventId : Bytes) (amount : Nat)
    (ha : amount * 101 < 18446744073709551516) (info : Codec.Info) (hi : info = Codec.parseInfo env.info ⟨[], [], []⟩ tags) (m : Bytes) (hm : m ∈ info.mints) (hk : info.pubkey ≠ [])
    (hr : info.relays ≠ []) (hb : heldAt tokens m < 18446744073709551616) (hh : amount * 101 / 100 + 2 < heldAt tokens m)
    (hs : ∀ k, ∃ ps t, send (env.w k).toWorld tokens amount m (withP2PK env.parse info.pubkey) = (.ok ps, t))
    (hp : ∀ k m', (send (env.w k).toWorld tokens amount m' (withP2PK env.parse info.pubkey)).1 ≠ .panic) :
    ∃ z t m' ps j, sendNutzap env tokens (some tags) target eventId amount = .val (some z, t) ∧ z.tags = zapTags env target eventId m' ps ∧
      send (env.w j).toWorld tokens amount m' (withP2PK env.parse info.pubkey) = (.ok ps, t) := by
  have hel : m ∈ eligibleMints info.mints amount (fun _ => 0) tokens := (C158_tried info.mints tokens amount ha m hb).2 ⟨hm, hh⟩
  have hval : ∀ (ms : List Bytes) (k : Nat), ∃ r, firstSend env.w amount (withP2PK env.parse info.pubkey) k tokens ms = .val r := by
    intro ms
    induction ms with
    | nil => exact fun k => ⟨_, rfl⟩
    | cons m' ms ih =>
      intro k
      unfold firstSend
      cases hx : send (env.w k).toWorld tokens amount m' (withP2PK env.parse info.pubkey) with
      | mk r t =>
        cases r with
        | panic => exact absurd (by rw [hx]) (hp k m')
        | ok ps => exact ⟨_, rfl⟩
        | err e =>
          have := C82_error_keeps_tokens (env.w k).toWorld tokens amount m' (withP2PK env.parse info.pubkey) (by rw [hx]; simp)
          rw [hx] at this
          simp only at this ⊢
          rw [this]
          exact ih (k + 1)
  obtain ⟨⟨got, t⟩, hf⟩ := hval (eligibleMints info.mints amount (fun _ => 0) tokens) 0
  obtain ⟨f1, f2⟩ := firstSend_ok hf
  cases got with
  | none =>
    obtain ⟨i, hi', hx⟩ := List.getElem_of_mem hel
    obtain ⟨e, he⟩ := (f2 rfl).2 i m (by rw [List.getElem?_eq_getElem hi', hx])
    obtain ⟨ps, t', hs'⟩ := hs (0 + i)
    rw [hs'] at he
    cases he
  | some g =>
    obtain ⟨m', ps⟩ := g
    obtain ⟨-, j, hj⟩ := f1 m' ps rfl
    refine ⟨⟨zapTags env target eventId m' ps, info.relays⟩, t, m', ps, j, ?_, rfl, hj⟩
    unfold sendNutzap
    simp only [← hi]
    have hml : info.mints.length ≠ 0 := fun hx => by rw [List.length_eq_zero_iff.1 hx] at hm; cases hm
    have hrl : info.relays.length ≠ 0 := fun hx => hr (List.length_eq_zero_iff.1 hx)
    rw [if_neg (fun hx => hx.elim hml hk)]
    have hz : zapRelays env info target = info.relays := by rw [zapRelays_eq, if_neg hr]
    rw [hz, if_neg hrl]
    simp [hf, hsig, Out.pure_eq]

/-- **C158, C85 false of every nutzap:** none that is published has a locked proof, whichever way the proofs came. -/
theorem C158_never_locked (env : ZapEnv) (hpub : ∀ b, env.info.parsePub b = true → b.length = 32) (hparse : ∀ b k, env.parse b = some k → b.length = 33 ∨ b.length = 65)
    (hw : ∀ j, Honest (env.w j).toWorld) (tokens t : List Token) (infoEvent : Option (List (List Bytes))) (target eventId : Bytes) (amount : Nat) (z : Zap)
    (h : sendNutzap env tokens infoEvent target eventId amount = .val (some z, t)) :
    ∃ m ps, z.tags = zapTags env target eventId m ps ∧ ∀ x ∈ ps, x.lock = none := by
  obtain ⟨tags, info, m, ps, h1, h2, h3, h4, h5, h6, h7, h8, h9⟩ := sendNutzap_ok h
  refine ⟨m, ps, h5, ?_⟩
  rcases h9 with ⟨j, hj⟩ | ⟨j, tk, hj⟩
  · have hv := (Codec.infoKey_valid env.info tags { (⟨[], [], []⟩ : Codec.Info) with mints := [] } (.inl rfl)).resolve_left (by rw [h2] at h3; exact h3)
    rw [h2] at hj
    exact (C85_nostr_key_not_locked env.parse hparse env.info.parsePub hpub _ (hw j) tokens amount m _ hv).2 ps t hj
  · unfold sendExternal at hj
    split at hj
    · cases hj
    · split at hj
      · cases hj
      · cases hj
      · simp only [Prod.mk.injEq] at hj
        obtain ⟨hj, -⟩ := hj
        unfold redeem at hj
        split at hj
        · cases hj
        · cases hj
        · split at hj
          · cases hj
          · simp only at hj
            split at hj
            · cases hj
            · split at hj
              · cases hj
              · cases hj
              · next hc =>
                simp only [Res.ok.injEq] at hj
                subst hj
                intro x hx
                have hl : x.lock ∈ _ := List.mem_map_of_mem (f := (·.lock)) hx
                rw [(construct_ok hc).2] at hl
                obtain ⟨o, ho, hl⟩ := List.mem_map.1 hl
                obtain ⟨a, -, rfl⟩ := List.mem_map.1 (List.mem_of_mem_take ho)
                exact hl.symm

/-- Mints that keep their word, a signer that signs. -/
def exZap : ZapEnv where
  info := ⟨id, fun b => b.length == 32⟩
  parse := fun b => if b.length = 33 then some b else none
  w := fun _ => quoteWorld
  x := fun _ => quoteWorld
  says := fun _ => false
  readRelays := fun _ => [b! "rr"]
  render := fun p => [UInt8.ofNat p.amount]
  signs := true

/-- A value of the examples. -/
def exInfo : List (List Bytes) := [[b! "mint", b! "a"], [b! "mint", b! "m"], [b! "relay", b! "r"], [b! "pubkey", hexEnc (List.replicate 32 7)]]

/-- A value of the examples. -/
def exTokens : List Token := [⟨b! "m", [⟨16, b! "k", none⟩, ⟨4, b! "k", none⟩, ⟨1, b! "k", none⟩], some (b! "id")⟩]

/-- A nutzap of four out of the wallet's token at the second mint. -/
example : sendNutzap exZap exTokens (some exInfo) (b! "t") (b! "ev") 4 =
    .val (some ⟨[[b! "p", b! "t"], [b! "e", b! "ev"], [b! "u", b! "m"], [b! "proof", [4]]], [b! "r"]⟩, [⟨b! "m", [⟨16, b! "k", none⟩, ⟨1, b! "k", none⟩], some (b! "new")⟩]) := by decide +kernel

/-- One of ten for someone who accepts another mint only: paid over Lightning. -/
example : sendNutzap exZap exTokens (some [[b! "mint", b! "a"], [b! "pubkey", hexEnc (List.replicate 32 7)]]) (b! "t") [] 10 =
    .val (some ⟨[[b! "p", b! "t"], [b! "u", b! "a"], [b! "proof", [8]], [b! "proof", [2]]], [b! "rr"]⟩, [⟨b! "m", [⟨8, b! "k", none⟩, ⟨2, b! "k", none⟩], some (b! "new")⟩]) := by decide +kernel

/-- **C158 is false when the signer fails:** an error is reported, nothing is published, and the money has left the wallet (the proofs are not kept). -/
theorem C158_signing_loses : ∃ t, sendNutzap { exZap with signs := false } exTokens (some exInfo) (b! "t") [] 4 = .val (none, t) ∧ balance t + 4 = balance exTokens :=
  ⟨[⟨b! "m", [⟨16, b! "k", none⟩, ⟨1, b! "k", none⟩], some (b! "new")⟩], by decide +kernel, by decide +kernel⟩

/-- **C158 is false when a mint answers with certain words:** an error after the payment whose text has "generate mint quote" in it is taken for a refused quote, and the amount is paid again for
the next mint. -/
theorem C158_paid_twice : ∃ z t, sendNutzap { exZap with
      says := fun _ => true
      x := fun k => if k = 0 then { quoteWorld with mintState := fun _ _ => none } else quoteWorld }
    [⟨b! "m", [⟨16, b! "k", none⟩, ⟨16, b! "k", none⟩, ⟨16, b! "k", none⟩], some (b! "id")⟩] (some [[b! "mint", b! "a"], [b! "mint", b! "b"], [b! "pubkey", hexEnc (List.replicate 32 7)]]) (b! "t") [] 10 =
      .val (some z, t) ∧ balance t + 20 ≤ 48 :=
  ⟨_, _, rfl, by decide +kernel⟩

end GoNostr.Nip60
