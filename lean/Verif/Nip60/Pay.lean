import Verif.Nip60.Wallet
import Verif.Nip60.Invoice
/-!
# C124: paying invoices and receiving tokens (nip60)

`PayBolt11` (pay.go), `Receive` (receive.go), `lightningMeltMint` and `redeemMinted` (lightning-swap.go), `SendExternal` (send-external.go).

Mints are parameters, as in `Verif.Nip60.Wallet`; the answers to requests made in a loop may depend on the round. Waiting times, history
entries, publishing, blinding and signatures are not modelled.
-/

set_option autoImplicit false

namespace GoNostr.Nip60

/-- What a mint says about a melt (`nut05.State` and the change): `Unpaid`, `Unknown`, `Pending`, or paid. -/
inductive MeltSt
  | unpaid | unknown | pending
  | paid (preimage : Bytes) (change : List Sig)
  deriving DecidableEq, Repr

/-- The mints, for paying and receiving. -/
structure PayWorld extends World where
  /-- `client.GetMintInfo`: reachable and supporting nut08 -/
  nut08 : Bytes → Bool
  /-- `client.GetActiveKeyset` and `ParseKeysetKeys` succeed -/
  active : Bytes → Bool
  /-- `client.PostMeltQuoteBolt11`: round, mint, invoice; quote, amount, fee reserve -/
  meltQuote : Nat → Bytes → Bytes → Option (Bytes × Nat × Nat)
  /-- `client.PostMeltBolt11` and then, while the answer is `pending`, `client.GetMeltQuoteState`: mint, quote, inputs, outputs; the answers, `none` for an error -/
  melt : Bytes → Bytes → List Proof → List Output → List (Option MeltSt)
  /-- `client.PostMintQuoteBolt11`: round, mint, amount; invoice, quote -/
  mintQuote : Nat → Bytes → Nat → Option (Bytes × Bytes)
  /-- `client.GetMintQuoteState`: the quote is paid (`none` for an error) -/
  mintState : Bytes → Bytes → Option Bool
  /-- `client.PostMintBolt11` -/
  mint : Bytes → Bytes → List Output → Option (List Sig)
  /-- `nostr.NormalizeHTTPURL` -/
  norm : Bytes → Bytes
  /-- the secret of a proof asks for a hash preimage (`nut10.HTLC`) -/
  htlc : Proof → Bool

/-- The errors of `PayBolt11` (nip60/pay.go:14-145). -/
inductive PayErr
  | invoice | select (e : SelErr) | quote | tooExpensive | keyset | unpaid | unknown | waiting | change (e : SendErr) | save
  deriving DecidableEq, Repr

/-- The label `inspectmeltstatusresponse` (pay.go:106-119, lightning-swap.go:82-96): the first answer that is not `pending` decides. -/
def settle : List (Option MeltSt) → Res PayErr (Bytes × List Sig)
  | [] => .err .waiting
  | none :: _ => .err .unpaid
  | some .unpaid :: _ => .err .unpaid
  | some .unknown :: _ => .err .unknown
  | some .pending :: rest => settle rest
  | some (.paid pre change) :: _ => .ok (pre, change)

/-- The loop that looks for a mint and tokens (pay.go:41-75): `left` rounds, `round` already made, absolute reserve, excluded mints. -/
def findMelt (w : PayWorld) (tokens : List Token) (invoice : Bytes) (sats : Nat) (specific : Bytes) :
    Nat → Nat → Nat → List Bytes → Res PayErr (Part × Nat × Bytes)
  | 0, _, _, _ => .err .tooExpensive
  | left + 1, round, abs, exclude =>
    match getProofs w.keysets (addU (mulU sats 101 / 100) abs) specific exclude tokens with
    | .panic => .panic
    | .err e => .err (.select e)
    | .ok (p, fee) =>
      if ¬ w.nut08 p.mint then findMelt w tokens invoice sats specific left (round + 1) abs (exclude ++ [p.mint])
      else match w.meltQuote round p.mint invoice with
        | none => .err .quote
        | some (q, amount, reserve) =>
          if addU (addU amount reserve) fee > amountOf p.proofs then
            findMelt w tokens invoice sats specific left (round + 1) (abs + 1) exclude
          else .ok (p, fee, q)

/-- The change outputs prepared for the melt (pay.go:89-95): an error of the split is ignored. -/
def payOutputs (w : World) (p : Part) (target : Nat) : Out (List Output) :=
  match splitAmounts p.keysets p.proofs target with
  | .panic => .panic
  | .err _ => .val []
  | .ok (_, c) => .val (createOutputs none (w.split c))

/-- `PayBolt11` (pay.go:14-145): the preimage, if it succeeds, and the tokens afterwards. -/
def payBolt11 (w : PayWorld) (tokens : List Token) (invoice specific : Bytes) : Res PayErr Bytes × List Token :=
  match satoshis invoice with
  | none => (.err .invoice, tokens)
  | some sats =>
    match findMelt w tokens invoice sats specific 5 0 1 [] with
    | .panic => (.panic, tokens)
    | .err e => (.err e, tokens)
    | .ok (p, fee, q) =>
      if ¬ w.active p.mint then (.err .keyset, tokens)
      else match payOutputs w.toWorld p (addU sats fee) with
        | .panic => (.panic, tokens)
        | .val outs => match settle (w.melt p.mint q p.proofs outs) with
          | .panic => (.panic, tokens)
          | .err e => (.err e, tokens)
          | .ok (preimage, sigs) => match construct (w.keys p.mint) outs sigs with
            | .panic => (.panic, tokens)
            | .err e => (.err (.change e), tokens)
            | .ok change => match saveChange w.toWorld tokens p.mint change p.indexes with
              | none => (.err .save, tokens)
              | some tokens' => (.ok preimage, tokens')

/-- `redeemMinted` (lightning-swap.go:108-167). -/
def redeem (w : PayWorld) (mint quote : Bytes) (amount : Nat) : Res PayErr (List Proof) :=
  match w.mintState mint quote with
  | none => .err .unknown
  | some false => .err .unpaid
  | some true =>
    if ¬ w.active mint then .err .keyset
    else
      let outs := createOutputs none (w.split amount)
      match w.mint mint quote outs with
      | none => .err .quote
      | some sigs => match construct (w.keys mint) outs sigs with
        | .panic => .panic
        | .err e => .err (.change e)
        | .ok ps => .ok ps

/-- `lightningSwapStatus` (lightning-swap.go:15-22). -/
inductive SwapSt
  | another | store | manual
  deriving DecidableEq, Repr

/-- The loop that looks for an invoice the proofs can pay (lightning-swap.go:36-69): the melt quote, the mint quote and the amount. -/
def findSwap (w : PayWorld) (have_ fee : Nat) (src dst : Bytes) : Nat → Nat → Nat → Res SwapSt (Bytes × Bytes × Nat)
  | 0, _, _ => .err .another
  | left + 1, round, pct =>
    let amount := mulU have_ pct / 100
    match w.mintQuote round dst (subU amount fee) with
    | none => .err .another
    | some (inv, mq) => match w.meltQuote round src inv with
      | none => .err .store
      | some (q, am, reserve) =>
        if addU (addU am reserve) fee > have_ then findSwap w have_ fee src dst left (round + 1) (pct - 1)
        else .ok (q, mq, amount)

/-- `lightningMeltMint` (lightning-swap.go:25-106). -/
def meltMint (w : PayWorld) (ps : List Proof) (src : Bytes) (keysets : List Keyset) (dst : Bytes) : Res SwapSt (List Proof) :=
  match calculateFee ps keysets with
  | .panic => .panic
  | .val fee => match findSwap w (amountOf ps) fee src dst 10 0 99 with
    | .panic => .panic
    | .err e => .err e
    | .ok (q, mq, amount) => match settle (w.melt src q ps []) with
      | .panic => .panic
      | .err .unknown => .err .manual
      | .err _ => .err .store
      | .ok _ => match redeem w dst mq amount with
        | .panic => .panic
        | .err _ => .err .manual
        | .ok ps' => .ok ps'

/-- The loop over the destination mints (receive.go:89-117): the proofs to save and their mint; `err` when nothing is saved. -/
def moveTo (w : PayWorld) (ps : List Proof) (src : Bytes) (keysets : List Keyset) : List Bytes → Res Unit (List Proof × Bytes)
  | [] => .ok (ps, src)
  | dst :: rest => match meltMint w ps src keysets dst with
    | .panic => .panic
    | .err .another => moveTo w ps src keysets rest
    | .err .manual => .err ()
    | .err .store => .ok (ps, src)
    | .ok ps' => .ok (ps', dst)

/-- The errors of `Receive` (nip60/receive.go:33-161). -/
inductive RecvErr
  | htlc | keysets | swap (e : SendErr) | lightning | save
  deriving DecidableEq, Repr

/-- `Receive` (receive.go:33-161). Signing locked proofs is not modelled. -/
def receive (w : PayWorld) (tokens : List Token) (ps : List Proof) (mint : Bytes) (dests : List Bytes) : Res RecvErr Unit × List Token :=
  if ps.any w.htlc then (.err .htlc, tokens)
  else
    let source := w.norm mint
    match w.keysets source with
    | none => (.err .keysets, tokens)
    | some keysets => match swapProofs w.toWorld source ps (amountOf ps) none with
      | .panic => (.panic, tokens)
      | .err e => (.err (.swap e), tokens)
      | .ok (new, _) =>
        match (if dests.contains source then moveTo w new source keysets dests else .ok (new, source)) with
        | .panic => (.panic, tokens)
        | .err _ => (.err .lightning, tokens)
        | .ok (kept, at_) => match w.sign kept with
          | none => (.err .save, tokens)
          | some id => (.ok (), tokens ++ [⟨at_, kept, some id⟩])

/-- `SendExternal` (send-external.go:12-36). -/
def sendExternal (w : PayWorld) (tokens : List Token) (mint : Bytes) (target : Nat) (specific : Bytes) : Res PayErr (List Proof) × List Token :=
  match w.mintQuote 0 mint target with
  | none => (.err .quote, tokens)
  | some (inv, mq) => match payBolt11 w tokens inv specific with
    | (.panic, t) => (.panic, t)
    | (.err e, t) => (.err e, t)
    | (.ok _, t) => (redeem w mint mq target, t)

/-! ## What paying does -/

/-- The first decisive answer. -/
theorem settle_ok : ∀ {l : List (Option MeltSt)} {pre : Bytes} {sigs : List Sig}, settle l = .ok (pre, sigs) →
    ∃ n rest, l = List.replicate n (some .pending) ++ some (.paid pre sigs) :: rest
  | [], _, _, h => by cases h
  | none :: _, _, _, h => by cases h
  | some .unpaid :: _, _, _, h => by cases h
  | some .unknown :: _, _, _, h => by cases h
  | some .pending :: l, pre, sigs, h => by
    obtain ⟨n, rest, e⟩ := settle_ok (l := l) h
    exact ⟨n + 1, rest, by rw [e, List.replicate_succ, List.cons_append]⟩
  | some (.paid p c) :: l, pre, sigs, h => by
    simp only [settle, Res.ok.injEq, Prod.mk.injEq] at h
    exact ⟨0, l, by rw [h.1, h.2]; rfl⟩

theorem findMelt_ok {w : PayWorld} {tokens : List Token} {invoice : Bytes} {sats : Nat} {specific : Bytes} {p : Part} {fee : Nat} {q : Bytes} :
    ∀ {left round abs : Nat} {exclude : List Bytes}, findMelt w tokens invoice sats specific left round abs exclude = .ok (p, fee, q) →
      ∃ abs' exclude' round' amount reserve, exclude <+: exclude' ∧
        getProofs w.keysets (addU (mulU sats 101 / 100) abs') specific exclude' tokens = .ok (p, fee) ∧ w.nut08 p.mint = true ∧
        w.meltQuote round' p.mint invoice = some (q, amount, reserve) ∧ addU (addU amount reserve) fee ≤ amountOf p.proofs
  | 0, _, _, _, h => by cases h
  | left + 1, round, abs, exclude, h => by
    simp only [findMelt] at h
    split at h
    · cases h
    · cases h
    · next p' fee' hg =>
      split at h
      · obtain ⟨a, e, r, am, re, h1, h2⟩ := findMelt_ok h
        exact ⟨a, e, r, am, re, (List.prefix_append _ _).trans h1, h2⟩
      · next hn =>
        split at h
        · cases h
        · next q' am re hq =>
          split at h
          · obtain ⟨a, e, r, am, re, h1, h2⟩ := findMelt_ok h
            exact ⟨a, e, r, am, re, h1, h2⟩
          · next hle =>
            simp only [Res.ok.injEq, Prod.mk.injEq] at h
            obtain ⟨rfl, rfl, rfl⟩ := h
            exact ⟨abs, exclude, round, am, re, List.prefix_refl _, hg, by simpa using hn, hq, by omega⟩

theorem payBolt11_ok {w : PayWorld} {tokens : List Token} {invoice specific preimage : Bytes} {tokens' : List Token}
    (h : payBolt11 w tokens invoice specific = (.ok preimage, tokens')) :
    ∃ sats p fee q outs sigs change, satoshis invoice = some sats ∧ findMelt w tokens invoice sats specific 5 0 1 [] = .ok (p, fee, q) ∧
      payOutputs w.toWorld p (addU sats fee) = .val outs ∧ settle (w.melt p.mint q p.proofs outs) = .ok (preimage, sigs) ∧
      construct (w.keys p.mint) outs sigs = .ok change ∧ saveChange w.toWorld tokens p.mint change p.indexes = some tokens' := by
  unfold payBolt11 at h
  split at h
  · cases h
  · next sats hs =>
    split at h
    · cases h
    · cases h
    · next p fee q hf =>
      split at h
      · cases h
      · split at h
        · cases h
        · next outs ho =>
          split at h
          · cases h
          · cases h
          · next pre sigs hse =>
            split at h
            · cases h
            · cases h
            · next change hc =>
              split at h
              · cases h
              · next tk hsv =>
                cases h
                exact ⟨sats, p, fee, q, outs, sigs, change, hs, hf, ho, hse, hc, hsv⟩

theorem construct_len {keys : List Nat} : ∀ {outs : List Output} {sigs : List Sig} {ps : List Proof}, construct keys outs sigs = .ok ps →
    sigs.length ≤ outs.length
  | _, [], _, _ => by simp
  | [], s :: _, ps, h => by simp only [construct] at h; split at h <;> cases h
  | o :: os, s :: ss, ps, h => by
    simp only [construct] at h
    split at h
    · cases h
    · split at h
      · next ps' hps =>
        have := construct_len hps
        simp only [List.length_cons]
        omega
      · cases h
      · cases h

/-- **C124 (paying), partial.** If `PayBolt11` returns a preimage: it is the one a mint gave that says it has paid; that mint quoted a price which the
proofs handed over cover, input fee included; the proofs are those of whole tokens of that one mint, from the oldest on; and if the mint gave change, those
tokens are gone, the change is a new token, everything else is as it was, and the balance changed by exactly the difference.
Missing for the full property: change is what was overpaid (`C124_change_lost`), and no change (`C124_exact_payment_keeps_tokens`). -/
theorem C124_pay_partial (w : PayWorld) (tokens tokens' : List Token) (invoice specific preimage : Bytes)
    (h : payBolt11 w tokens invoice specific = (.ok preimage, tokens')) :
    ∃ mint q pre post outs n rest sigs fee keysets amount reserve round,
      w.keysets mint = some keysets ∧ calculateFee (proofsOf pre mint) keysets = .val fee ∧
      w.meltQuote round mint invoice = some (q, amount, reserve) ∧ addU (addU amount reserve) fee ≤ amountOf (proofsOf pre mint) ∧
      (specific ≠ [] → mint = specific) ∧ w.nut08 mint = true ∧ tokens = pre ++ post ∧
      w.melt mint q (proofsOf pre mint) outs = List.replicate n (some .pending) ++ some (.paid preimage sigs) :: rest ∧
      sigs.length ≤ outs.length ∧
      (sigs ≠ [] → ∃ change id, change.map (·.amount) = sigs.map (·.amount) ∧
        tokens' = (pre.filter (fun t => !(t.mint == mint)) ++ post) ++ [⟨mint, change, some id⟩] ∧
        balance tokens' + total (proofsOf pre mint) = balance tokens + (sigs.map (·.amount)).sum) := by
  obtain ⟨sats, p, fee, q, outs, sigs, change, -, hf, -, hs, hc, hsv⟩ := payBolt11_ok h
  obtain ⟨abs, excl, round, amount, reserve, -, hg, hn, hq, hle⟩ := findMelt_ok hf
  obtain ⟨hel, ⟨pre, post, e1, e2, e3, -⟩, hk, hfee, -⟩ := C83_selection _ _ _ _ _ _ _ hg
  obtain ⟨n, rest, hl⟩ := settle_ok hs
  have hamt := (construct_ok hc).1
  refine ⟨p.mint, q, pre, post, outs, n, rest, sigs, fee, p.keysets, amount, reserve, round, hk, by rw [← e3]; exact hfee, hq,
    by rw [← e3]; exact hle, ?_, hn, e1, by rw [← e3]; exact hl, ?_, ?_⟩
  · intro hsp
    exact hel.2 hsp
  · exact construct_len hc
  · intro hne
    have hlen : 0 < change.length := by
      have := congrArg List.length hamt
      simp only [List.length_map] at this
      have := List.length_pos_iff.2 hne
      omega
    unfold saveChange at hsv
    rw [if_pos hlen] at hsv
    cases hsg : w.sign change with
    | none => rw [hsg] at hsv; cases hsv
    | some id =>
      rw [hsg] at hsv
      simp only [Option.some.injEq] at hsv
      rw [e2, e1, without_eq] at hsv
      refine ⟨change, id, hamt, hsv.symm, ?_⟩
      rw [← hsv, e1, balance_append, balance_append, balance_append]
      have h1 := balance_split p.mint pre
      have h2 : balance [⟨p.mint, change, some id⟩] = (sigs.map (·.amount)).sum := by simp [balance, total, hamt]
      omega

/-- **C124 (errors).** Whatever goes wrong, the wallet's tokens stay as they are. -/
theorem C124_pay_error_keeps_tokens (w : PayWorld) (tokens : List Token) (invoice specific : Bytes)
    (h : ∀ pre, (payBolt11 w tokens invoice specific).1 ≠ .ok pre) : (payBolt11 w tokens invoice specific).2 = tokens := by
  unfold payBolt11 at h ⊢
  repeat' split
  all_goals first
    | rfl
    | (exfalso; simp_all; done)

/-! ### Where paying falls short -/

/-- The amounts of a binary split, biggest first, as mints give change. -/
def binSplit : Nat → List Nat
  | n => ((List.range 8).reverse.map (fun i => 2 ^ i)).filter (fun b => n / b % 2 = 1)

/-- A mint without input fees that asks for a reserve, pays with a Lightning fee, and, as NUT-08 has it, signs the prepared outputs for what was overpaid,
biggest first, as far as the outputs reach. -/
def payWorld (price reserve lnFee : Nat) : PayWorld :=
  { keysets := fun _ => some [⟨b! "k", 0⟩]
    p2pk := fun _ => true
    keys := fun _ => [1, 2, 4, 8, 16, 32, 64, 128]
    swap := fun _ _ outs => some (outs.map (fun o => ⟨o.amount, b! "k"⟩))
    split := binSplit
    sign := fun _ => some (b! "new")
    nut08 := fun _ => true
    active := fun _ => true
    meltQuote := fun _ _ _ => some (b! "q", price, reserve)
    melt := fun _ _ ins outs => [some .pending, some (.paid (b! "preimage")
      (((binSplit (total ins - price - lnFee)).take outs.length).map (fun a => ⟨a, b! "k"⟩)))]
    mintQuote := fun _ _ _ => some (b! "lnbc100n1qqqqqqqqqqqqqqqqqqqqqqqqqqqqqqqqqqqqqqqqqqqqqq", b! "mq")
    mintState := fun _ _ => some true
    mint := fun _ _ outs => some (outs.map (fun o => ⟨o.amount, b! "k"⟩))
    norm := id
    htlc := fun _ => false }

/-- A value of the examples. -/
def tenSats : Bytes := b! "lnbc100n1qqqqqqqqqqqqqqqqqqqqqqqqqqqqqqqqqqqqqqqqqqqqqq"

/-- A payment that meets the hypotheses of `C124_pay_partial`: ten satoshis out of 21, one of them for Lightning: ten come back. -/
example : payBolt11 (payWorld 10 2 1) [⟨b! "m", [⟨16, b! "k", none⟩, ⟨4, b! "k", none⟩, ⟨1, b! "k", none⟩], some (b! "id")⟩] tenSats [] =
    (.ok (b! "preimage"), [⟨b! "m", [⟨8, b! "k", none⟩, ⟨2, b! "k", none⟩], some (b! "new")⟩]) := by decide +kernel

/-- **C124 is false of the change.** The outputs for the change are prepared for the amount expected if Lightning were free. Ten satoshis out of 18 leave
8, one output; Lightning costs one, the 7 left over need three, and the mint returns the 4 that fit: three satoshis are lost. -/
theorem C124_change_lost :
    payBolt11 (payWorld 10 2 1) [⟨b! "m", [⟨16, b! "k", none⟩, ⟨2, b! "k", none⟩], some (b! "id")⟩] tenSats [] =
      (.ok (b! "preimage"), [⟨b! "m", [⟨4, b! "k", none⟩], some (b! "new")⟩]) ∧ 18 - 10 - 1 = 7 := by decide +kernel

/-- **C124 is false without change.** If nothing comes back, the tokens just spent stay in the wallet. -/
theorem C124_exact_payment_keeps_tokens :
    payBolt11 (payWorld 10 2 2) [⟨b! "m", [⟨8, b! "k", none⟩, ⟨4, b! "k", none⟩], some (b! "id")⟩] tenSats [] =
      (.ok (b! "preimage"), [⟨b! "m", [⟨8, b! "k", none⟩, ⟨4, b! "k", none⟩], some (b! "id")⟩]) := by decide +kernel

/-- **C124 is false: an error means not paid.** The mint pays and answers with change of an amount it has no key for: an error, and the spent tokens stay; with more
signatures than outputs the program crashes. -/
theorem C124_paid_and_error :
    payBolt11 { payWorld 10 2 1 with melt := fun _ _ _ _ => [some (.paid (b! "preimage") [⟨3, b! "k"⟩])] }
      [⟨b! "m", [⟨16, b! "k", none⟩], some (b! "id")⟩] tenSats [] = (.err (.change .key), [⟨b! "m", [⟨16, b! "k", none⟩], some (b! "id")⟩]) ∧
    payBolt11 { payWorld 10 2 1 with melt := fun _ _ _ _ => [some (.paid (b! "preimage") [⟨1, b! "k"⟩, ⟨1, b! "k"⟩, ⟨1, b! "k"⟩])] }
      [⟨b! "m", [⟨16, b! "k", none⟩], some (b! "id")⟩] tenSats [] = (.panic, [⟨b! "m", [⟨16, b! "k", none⟩], some (b! "id")⟩]) := by decide +kernel

/-- **C124 is false: a wallet that has enough pays.** The reserve is raised by one satoshi a round, five times: with a mint that wants 7 and a first token of 16, the token of
128 behind it is never reached. -/
theorem C124_gives_up_with_enough :
    payBolt11 (payWorld 10 7 1) [⟨b! "m", [⟨16, b! "k", none⟩], some (b! "a")⟩, ⟨b! "m", [⟨128, b! "k", none⟩], some (b! "b")⟩] tenSats [] =
      (.err .tooExpensive, [⟨b! "m", [⟨16, b! "k", none⟩], some (b! "a")⟩, ⟨b! "m", [⟨128, b! "k", none⟩], some (b! "b")⟩]) := by decide +kernel

/-! ## Receiving -/

/-- Where the received money ends up: with the destinations given and the source among them, either at the source, the proofs of the swap there, or at one of the destinations, the proofs that mint
issued. -/
theorem C124_receive_where (w : PayWorld) (tokens tokens' : List Token) (ps : List Proof) (mint : Bytes) (dests : List Bytes)
    (h : receive w tokens ps mint dests = (.ok (), tokens')) :
    ∃ new chg keysets kept at_ id, w.keysets (w.norm mint) = some keysets ∧ swapProofs w.toWorld (w.norm mint) ps (amountOf ps) none = .ok (new, chg) ∧
      tokens' = tokens ++ [⟨at_, kept, some id⟩] ∧
      ((at_ = w.norm mint ∧ kept = new) ∨ (at_ ∈ dests ∧ meltMint w new (w.norm mint) keysets at_ = .ok kept)) := by
  have mv : ∀ (new : List Proof) (src : Bytes) (keysets : List Keyset) (ds : List Bytes) (kept : List Proof) (at_ : Bytes), moveTo w new src keysets ds = .ok (kept, at_) →
      (at_ = src ∧ kept = new) ∨ (at_ ∈ ds ∧ meltMint w new src keysets at_ = .ok kept) := by
    intro new src keysets ds
    induction ds with
    | nil =>
      intro kept at_ h
      simp only [moveTo, Res.ok.injEq, Prod.mk.injEq] at h
      exact .inl ⟨h.2.symm, h.1.symm⟩
    | cons d ds ih =>
      intro kept at_ h
      simp only [moveTo] at h
      split at h
      · cases h
      · rcases ih kept at_ h with i | ⟨i, j⟩
        · exact .inl i
        · exact .inr ⟨List.mem_cons_of_mem _ i, j⟩
      · cases h
      · simp only [Res.ok.injEq, Prod.mk.injEq] at h
        exact .inl ⟨h.2.symm, h.1.symm⟩
      · next ps' hm =>
        simp only [Res.ok.injEq, Prod.mk.injEq] at h
        obtain ⟨rfl, rfl⟩ := h
        exact .inr ⟨List.mem_cons_self, hm⟩
  unfold receive at h
  split at h
  · cases h
  · simp only at h
    split at h
    · cases h
    · next keysets hk =>
      split at h
      · cases h
      · cases h
      · next new chg hsw =>
        split at h
        · cases h
        · cases h
        · next kept at_ hm =>
          split at h
          · cases h
          · next id hid =>
            simp only [Prod.mk.injEq, true_and] at h
            refine ⟨new, chg, keysets, kept, at_, id, hk, hsw, h.symm, ?_⟩
            split at hm
            · exact mv _ _ _ _ _ _ hm
            · simp only [Res.ok.injEq, Prod.mk.injEq] at hm
              exact .inl ⟨hm.2.symm, hm.1.symm⟩

/-- **C124 (receiving), partial.** If `Receive` succeeds and the mint of the proofs is not among the destinations given, one token is added, at the mint of the proofs,
worth the proofs less the fee for spending them; nothing else changes. -/
theorem C124_receive_partial (w : PayWorld) (hw : Honest w.toWorld) (tokens tokens' : List Token) (ps : List Proof) (mint : Bytes) (dests : List Bytes)
    (hd : w.norm mint ∉ dests) (h : receive w tokens ps mint dests = (.ok (), tokens')) :
    ∃ new id keysets fee, tokens' = tokens ++ [⟨w.norm mint, new, some id⟩] ∧ w.keysets (w.norm mint) = some keysets ∧ calculateFee ps keysets = .val fee ∧
      (total ps < 18446744073709551616 → fee ≤ total ps → total new + fee = total ps ∧ balance tokens' + fee = balance tokens + total ps) := by
  unfold receive at h
  split at h
  · cases h
  · simp only at h
    split at h
    · cases h
    · next keysets hk =>
      split at h
      · cases h
      · cases h
      · next new chg hsw =>
        rw [if_neg (by simpa using hd)] at h
        simp only at h
        split at h
        · cases h
        · next id hid =>
          simp only [Prod.mk.injEq, true_and] at h
          obtain ⟨ks, a, ca, k1, k2, k3, -, -, -⟩ := swapProofs_ok hw hsw
          rw [hk] at k1
          cases k1
          have k2' := k2
          unfold splitAmounts at k2
          cases hfee : calculateFee ps keysets with
          | panic => rw [hfee] at k2; cases k2
          | val fee =>
            rw [hfee] at k2
            simp only [Nat.lt_irrefl, if_false, if_true, Res.ok.injEq, Prod.mk.injEq] at k2
            refine ⟨new, id, keysets, fee, h.symm, hk, hfee, fun hb hle => ?_⟩
            have e1 : amountOf ps = total ps := Nat.mod_eq_of_lt hb
            rw [e1] at k2
            have e2 : subU (total ps) fee = total ps - fee := by unfold subU; omega
            have e3 : total new = total ps - fee := by
              unfold total at *
              rw [k3, hw.split, ← k2.1, e2]
            refine ⟨by omega, ?_⟩
            rw [← h, balance_append]
            have : balance [⟨w.norm mint, new, some id⟩] = total new := by simp [balance]
            omega

/-- **C124 is false of destinations.** `Receive` moves the money only when the mint of the proofs is among the destinations (the test is the wrong way round): if it is not, the destinations
have no effect at all. -/
theorem C124_destination_ignored (w : PayWorld) (tokens : List Token) (ps : List Proof) (mint : Bytes) (dests : List Bytes) (hd : w.norm mint ∉ dests) :
    receive w tokens ps mint dests = receive w tokens ps mint [] := by
  have h1 : dests.contains (w.norm mint) = false := by simpa using hd
  have h2 : ([] : List Bytes).contains (w.norm mint) = false := by simp
  unfold receive
  simp only [h1, h2, Bool.false_eq_true, if_false]

/-- Tokens of another mint stay there although a destination is given. -/
example : receive (payWorld 10 2 1) [] [⟨16, b! "k", none⟩] (b! "other") [b! "mine"] = (.ok (), [⟨b! "other", [⟨16, b! "k", none⟩], some (b! "new")⟩]) := by decide +kernel

theorem findSwap_ok {w : PayWorld} {have_ fee : Nat} {src dst q mq : Bytes} {amount : Nat} :
    ∀ {left round pct : Nat}, findSwap w have_ fee src dst left round pct = .ok (q, mq, amount) →
      ∃ round' pct' inv am reserve, pct' ≤ pct ∧ amount = mulU have_ pct' / 100 ∧ w.mintQuote round' dst (subU amount fee) = some (inv, mq) ∧
        w.meltQuote round' src inv = some (q, am, reserve) ∧ addU (addU am reserve) fee ≤ have_
  | 0, _, _, h => by cases h
  | left + 1, round, pct, h => by
    simp only [findSwap] at h
    split at h
    · cases h
    · next inv mq' hmq =>
      split at h
      · cases h
      · next q' am re hq =>
        split at h
        · obtain ⟨r, p, inv, am, re, h1, h2⟩ := findSwap_ok h
          exact ⟨r, p, inv, am, re, by omega, h2⟩
        · next hle =>
          simp only [Res.ok.injEq, Prod.mk.injEq] at h
          obtain ⟨rfl, rfl, rfl⟩ := h
          exact ⟨round, pct, inv, am, re, Nat.le_refl _, rfl, hmq, hq, by omega⟩

theorem redeem_ok {w : PayWorld} {mint quote : Bytes} {amount : Nat} {ps : List Proof} (h : redeem w mint quote amount = .ok ps) :
    ∃ sigs, w.mint mint quote (createOutputs none (w.split amount)) = some sigs ∧ w.mintState mint quote = some true ∧
      ps.map (·.amount) = sigs.map (·.amount) ∧ sigs.length ≤ (w.split amount).length := by
  unfold redeem at h
  split at h
  · cases h
  · cases h
  · next hst =>
    split at h
    · cases h
    · simp only at h
      split at h
      · cases h
      · next sigs hs =>
        split at h
        · cases h
        · cases h
        · next ps' hc =>
          simp only [Res.ok.injEq] at h
          subst h
          refine ⟨sigs, hs, hst, (construct_ok hc).1, ?_⟩
          have := construct_len hc
          simpa [createOutputs] using this

/-- A mint that honours its quotes: it signs outputs worth exactly what was quoted, for what they ask. -/
structure HonestMint (w : PayWorld) (quoted : Bytes → Bytes → Nat) : Prop where
  quote : ∀ i m a inv q, w.mintQuote i m a = some (inv, q) → quoted m q = a
  exact : ∀ m q outs sigs, w.mint m q outs = some sigs → (outs.map (·.amount)).sum = quoted m q
  signs : ∀ m q outs sigs, w.mint m q outs = some sigs → sigs.map (·.amount) = outs.map (·.amount)

theorem meltMint_ok {w : PayWorld} {ps out : List Proof} {src dst : Bytes} {keysets : List Keyset} (h : meltMint w ps src keysets dst = .ok out) :
    ∃ fee q mq amount, calculateFee ps keysets = .val fee ∧ findSwap w (amountOf ps) fee src dst 10 0 99 = .ok (q, mq, amount) ∧ redeem w dst mq amount = .ok out := by
  unfold meltMint at h
  split at h
  · cases h
  · next fee hfee =>
    split at h
    · cases h
    · cases h
    · next q mq amount hf =>
      split at h
      · cases h
      · cases h
      · cases h
      · split at h
        · cases h
        · cases h
        · next ps' hr =>
          simp only [Res.ok.injEq] at h
          subst h
          exact ⟨fee, q, mq, amount, hfee, hf, hr⟩

/-- **C124 is false of moving money between mints when spending costs a fee.** The invoice is made out for the amount less the fee, but the proofs are then asked for the whole
amount: a mint that honours its quotes refuses, always. The old proofs have been melted by then. -/
theorem C124_swap_with_fee_never_works (w : PayWorld) (quoted : Bytes → Bytes → Nat) (hm : HonestMint w quoted) (hs : ∀ a, (w.split a).sum = a)
    (ps : List Proof) (src dst : Bytes) (keysets : List Keyset) (fee : Nat) (hf : calculateFee ps keysets = .val fee) (hpos : 0 < fee) (out : List Proof) :
    meltMint w ps src keysets dst ≠ .ok out := by
  intro h
  obtain ⟨fee', q, mq, amount, h1, h2, h3⟩ := meltMint_ok h
  rw [hf] at h1
  cases h1
  obtain ⟨r, pct, inv, am, re, -, ha, hq, -, -⟩ := findSwap_ok h2
  obtain ⟨sigs, hmint, -, -, -⟩ := redeem_ok h3
  have e1 := hm.exact _ _ _ _ hmint
  have e2 := hm.quote _ _ _ _ _ hq
  rw [createOutputs_amounts, hs, e2] at e1
  have hfl : fee < 18446744073709551616 := by
    unfold calculateFee at hf
    split at hf
    · cases hf
    · cases hf
      unfold addU
      omega
  have hal : amount < 18446744073709551616 := by
    rw [ha]
    unfold mulU
    omega
  unfold subU at e1
  omega

/-- **C124 (moving money).** When it does work, for want of a fee, the new proofs are worth at most 99 hundredths of the old ones, whatever Lightning cost: the invoice is for at most that, and no change is asked for. -/
theorem C124_moving_costs (w : PayWorld) (quoted : Bytes → Bytes → Nat) (hm : HonestMint w quoted) (hs : ∀ a, (w.split a).sum = a)
    (ps : List Proof) (src dst : Bytes) (keysets : List Keyset) (out : List Proof) (h : meltMint w ps src keysets dst = .ok out)
    (hb : total ps * 100 < 18446744073709551616) : total out * 100 ≤ total ps * 99 ∧ calculateFee ps keysets = .val 0 := by
  obtain ⟨fee, q, mq, amount, h1, h2, h3⟩ := meltMint_ok h
  obtain ⟨r, pct, inv, am, re, hp, ha, hq, -, -⟩ := findSwap_ok h2
  obtain ⟨sigs, hmint, -, hsig, -⟩ := redeem_ok h3
  have e1 := hm.signs _ _ _ _ hmint
  rw [createOutputs_amounts] at e1
  have e2 : total out = amount := by unfold total; rw [hsig, e1, hs]
  constructor
  · rw [e2, ha]
    have e3 : amountOf ps = total ps := Nat.mod_eq_of_lt (by omega)
    rw [e3]
    unfold mulU
    have : total ps * pct ≤ total ps * 99 := Nat.mul_le_mul_left _ hp
    rw [Nat.mod_eq_of_lt (by omega)]
    omega
  · rcases Nat.eq_zero_or_pos fee with hz | hz
    · rw [h1, hz]
    · exact absurd h (C124_swap_with_fee_never_works w quoted hm hs ps src dst keysets fee h1 hz out)

/-- Receiving from a mint one trusts, naming it: the money makes a Lightning round trip and loses one part in a hundred and more; with a failing round trip it is lost. -/
theorem C124_own_mint_loses :
    receive (payWorld 10 2 1) [] [⟨128, b! "k", none⟩] (b! "m") [b! "m"] =
      (.ok (), [⟨b! "m", (binSplit 126).map (fun a => ⟨a, b! "k", none⟩), some (b! "new")⟩]) ∧
    receive { payWorld 10 2 1 with mint := fun _ _ _ => none } [] [⟨128, b! "k", none⟩] (b! "m") [b! "m"] = (.err .lightning, []) := by decide +kernel

/-- **C124 (errors).** A failed `Receive` adds nothing and removes nothing, also when the proofs given have been swapped and are worthless. -/
theorem C124_receive_error_keeps_tokens (w : PayWorld) (tokens : List Token) (ps : List Proof) (mint : Bytes) (dests : List Bytes)
    (h : (receive w tokens ps mint dests).1 ≠ .ok ()) : (receive w tokens ps mint dests).2 = tokens := by
  unfold receive at h ⊢
  simp only at h ⊢
  repeat' split
  all_goals first
    | rfl
    | skip
  all_goals (simp_all; done)

/-- **C124 (sending to another mint's user).** If `SendExternal` succeeds against a mint that honours its quotes, the proofs returned are worth exactly the amount asked for. -/
theorem C124_send_external (w : PayWorld) (quoted : Bytes → Bytes → Nat) (hm : HonestMint w quoted) (hs : ∀ a, (w.split a).sum = a)
    (tokens tokens' : List Token) (mint : Bytes) (target : Nat) (specific : Bytes) (out : List Proof)
    (h : sendExternal w tokens mint target specific = (.ok out, tokens')) :
    total out = target ∧ ∃ inv mq pre, w.mintQuote 0 mint target = some (inv, mq) ∧ payBolt11 w tokens inv specific = (.ok pre, tokens') := by
  unfold sendExternal at h
  split at h
  · cases h
  · next inv mq hq =>
    split at h
    · cases h
    · cases h
    · next pre t hp =>
      simp only [Prod.mk.injEq] at h
      obtain ⟨h1, rfl⟩ := h
      obtain ⟨sigs, hmint, -, hsig, -⟩ := redeem_ok h1
      have e1 := hm.signs _ _ _ _ hmint
      rw [createOutputs_amounts] at e1
      exact ⟨by unfold total; rw [hsig, e1, hs], inv, mq, pre, hq, hp⟩

/-- A mint that honours its quotes exists: it remembers the amount in the quote's length. -/
def quoteWorld : PayWorld :=
  { payWorld 10 2 1 with
    mintQuote := fun _ _ a => some (tenSats, List.replicate a 0)
    mint := fun _ q outs => if (outs.map (·.amount)).sum = q.length then some (outs.map (fun o => ⟨o.amount, b! "k"⟩)) else none }

theorem quoteWorld_honest : HonestMint quoteWorld (fun _ q => q.length) := by
  refine ⟨?_, ?_, ?_⟩
  · intro i m a inv q h
    simp only [quoteWorld, Option.some.injEq, Prod.mk.injEq] at h
    rw [← h.2, List.length_replicate]
  · intro m q outs sigs h
    simp only [quoteWorld] at h
    split at h
    · assumption
    · cases h
  · intro m q outs sigs h
    simp only [quoteWorld] at h
    split at h
    · simp only [Option.some.injEq] at h
      rw [← h, List.map_map]
      rfl
    · cases h

/-- It sends ten satoshis and gets ten back; where the target does not answer after the payment, the money has left the wallet and nothing remembers the quote. -/
example : sendExternal quoteWorld [⟨b! "m", [⟨16, b! "k", none⟩, ⟨4, b! "k", none⟩, ⟨1, b! "k", none⟩], some (b! "id")⟩] (b! "t") 10 [] =
      (.ok [⟨8, b! "k", none⟩, ⟨2, b! "k", none⟩], [⟨b! "m", [⟨8, b! "k", none⟩, ⟨2, b! "k", none⟩], some (b! "new")⟩]) ∧
    sendExternal { quoteWorld with mintState := fun _ _ => none } [⟨b! "m", [⟨16, b! "k", none⟩, ⟨4, b! "k", none⟩, ⟨1, b! "k", none⟩], some (b! "id")⟩] (b! "t") 10 [] =
      (.err .unknown, [⟨b! "m", [⟨8, b! "k", none⟩, ⟨2, b! "k", none⟩], some (b! "new")⟩]) := by decide +kernel

end GoNostr.Nip60
