import Verif.Nip60.Wallet
/-!
# C183: whatever a mint answers

`nip60/client/client.go`: how the answers of a mint are read; and what `swapProofs` and `Send` make of answers that are not what was asked for. The transport and the JSON of the answers are parameters.
-/

set_option autoImplicit false

namespace GoNostr.Nip60

/-! ## The client -/

/-- The parts of `http.Response` that are looked at. -/
structure Response where
  status : Int
  body : Bytes
  deriving DecidableEq, Repr

/-- Why there is no answer: the request failed, the mint's own error, a 400 whose body is no such error, another status with its body, or a body that is not what was asked for. -/
inductive AskErr
  | request | mint (reason : Bytes) | badError | status (body : Bytes) | undecodable
  deriving DecidableEq, Repr

/-- client.go:192-216 `parse`. *library* `decode` is `json.NewDecoder(body).Decode(dst)`, `decodeError` the same for `cashu.Error`. A body that cannot be read is an undecodable one. -/
def parse {α : Type} (decode : Bytes → Option α) (decodeError : Bytes → Option Bytes) (r : Response) : Res AskErr α :=
  if r.status = 400 then match decodeError r.body with
    | none => .err .badError
    | some e => .err (.mint e)
  else if r.status ≠ 200 then .err (.status r.body)
  else match decode r.body with
    | none => .err .undecodable
    | some v => .ok v

/-- client.go:156-168 `httpGet` and 170-190 `httpPost`, up to the request they make: `net` gives what came back, if anything. -/
def ask {α : Type} (net : Bytes → Option Response) (decode : Bytes → Option α) (decodeError : Bytes → Option Bytes) (url : Bytes) : Res AskErr α :=
  match net url with
  | none => .err .request
  | some r => parse decode decodeError r

/-- `nut01.Keyset`: id, unit, and for each amount the mint's key (hex). -/
structure KeysOf where
  id : Bytes
  unit : Bytes
  keys : List (Nat × Bytes)
  deriving DecidableEq, Repr

/-- client.go:29-42 `GetActiveKeyset`; `none` inside: there is no keyset in sat, an error too. -/
def getActiveKeyset (net : Bytes → Option Response) (decode : Bytes → Option (List KeysOf)) (decodeError : Bytes → Option Bytes) (mint : Bytes) : Res AskErr (Option KeysOf) :=
  match ask net decode decodeError (mint ++ b! "/v1/keys") with
  | .panic => .panic
  | .err e => .err e
  | .ok sets => .ok (sets.find? (fun k => k.unit == b! "sat"))

/-- client.go:52-58 `GetKeysetById`: `keysetRes.Keysets[0].Keys`. -/
def getKeysetById (net : Bytes → Option Response) (decode : Bytes → Option (List KeysOf)) (decodeError : Bytes → Option Bytes) (mint id : Bytes) : Res AskErr (List (Nat × Bytes)) :=
  match ask net decode decodeError (mint ++ b! "/v1/keys/" ++ id) with
  | .panic => .panic
  | .err e => .err e
  | .ok [] => .panic
  | .ok (k :: _) => .ok k.keys

/-- **C183 (answers).** There is an answer exactly if the mint said so, with status 200 and a body that is one; anything else is an error, and never a crash. -/
theorem C183_answer_iff {α : Type} (net : Bytes → Option Response) (decode : Bytes → Option α) (decodeError : Bytes → Option Bytes) (url : Bytes) :
    (∀ v, ask net decode decodeError url = .ok v ↔ ∃ body, net url = some ⟨200, body⟩ ∧ decode body = some v) ∧
    ask net decode decodeError url ≠ .panic ∧
    (∀ e, ask net decode decodeError url = .err (.mint e) ↔ ∃ body, net url = some ⟨400, body⟩ ∧ decodeError body = some e) := by
  unfold ask
  cases hn : net url with
  | none => simp
  | some r =>
    obtain ⟨s, b⟩ := r
    simp only [parse, Option.some.injEq, Response.mk.injEq]
    by_cases h4 : s = 400
    · subst h4
      cases hd : decodeError b with
      | none =>
        refine ⟨fun v => ⟨fun h => (by simp at h), ?_⟩, by simp, fun e => ⟨fun h => (by simp at h), ?_⟩⟩
        · rintro ⟨_, ⟨h, _⟩, _⟩; omega
        · rintro ⟨_, ⟨_, rfl⟩, h⟩; rw [hd] at h; cases h
      | some e' =>
        refine ⟨fun v => ⟨fun h => (by simp at h), ?_⟩, by simp, fun e => ⟨fun h => ?_, ?_⟩⟩
        · rintro ⟨_, ⟨h, _⟩, _⟩; omega
        · simp at h; subst h; exact ⟨b, ⟨rfl, rfl⟩, hd⟩
        · rintro ⟨_, ⟨_, rfl⟩, h⟩; rw [hd] at h; cases h; simp
    · rw [if_neg h4]
      by_cases h2 : s = 200
      · subst h2
        cases hd : decode b with
        | none =>
          refine ⟨fun v => ⟨fun h => (by simp at h), ?_⟩, by simp, fun e => ⟨fun h => (by simp at h), ?_⟩⟩
          · rintro ⟨_, ⟨_, rfl⟩, h⟩; rw [hd] at h; cases h
          · rintro ⟨_, ⟨h, _⟩, _⟩; omega
        | some v' =>
          refine ⟨fun v => ⟨fun h => ?_, ?_⟩, by simp, fun e => ⟨fun h => (by simp at h), ?_⟩⟩
          · simp at h; subst h; exact ⟨b, ⟨rfl, rfl⟩, hd⟩
          · rintro ⟨_, ⟨_, rfl⟩, h⟩; rw [hd] at h; cases h; simp
          · rintro ⟨_, ⟨h, _⟩, _⟩; omega
      · rw [if_pos h2]
        refine ⟨fun v => ⟨fun h => (by simp at h), ?_⟩, by simp, fun e => ⟨fun h => (by simp at h), ?_⟩⟩
        · rintro ⟨_, ⟨h, _⟩, _⟩; omega
        · rintro ⟨_, ⟨h, _⟩, _⟩; omega

/-- **C183 (the keyset in use).** `GetActiveKeyset` gives the first of the mint's keysets that is in sat; it never crashes. -/
theorem C183_active_keyset (net : Bytes → Option Response) (decode : Bytes → Option (List KeysOf)) (decodeError : Bytes → Option Bytes) (mint : Bytes) :
    (∀ k, getActiveKeyset net decode decodeError mint = .ok (some k) ↔ ∃ body before after, net (mint ++ b! "/v1/keys") = some ⟨200, body⟩ ∧
      decode body = some (before ++ k :: after) ∧ k.unit = b! "sat" ∧ ∀ k' ∈ before, k'.unit ≠ b! "sat") ∧
    getActiveKeyset net decode decodeError mint ≠ .panic := by
  obtain ⟨h1, h2, -⟩ := C183_answer_iff net decode decodeError (mint ++ b! "/v1/keys")
  unfold getActiveKeyset
  cases ha : ask net decode decodeError (mint ++ b! "/v1/keys") with
  | panic => exact absurd ha h2
  | err e =>
    refine ⟨fun k => ⟨fun h => (by cases h), ?_⟩, by simp⟩
    rintro ⟨body, before, after, hb, hd, -⟩
    have := (h1 _).2 ⟨body, hb, hd⟩
    rw [ha] at this
    cases this
  | ok sets =>
    obtain ⟨body, hb, hd⟩ := (h1 sets).1 ha
    refine ⟨fun k => ?_, by simp⟩
    simp only [Res.ok.injEq, List.find?_eq_some_iff_append]
    constructor
    · rintro ⟨hu, before, after, rfl, hbef⟩
      exact ⟨body, before, after, hb, hd, by simpa using hu, fun k' hk' => by simpa using hbef k' hk'⟩
    · rintro ⟨body', before, after, hb', hd', hu, hbef⟩
      rw [hb] at hb'
      cases hb'
      rw [hd] at hd'
      cases hd'
      exact ⟨by simpa using hu, before, after, rfl, fun k' hk' => by simpa using hbef k' hk'⟩

/-- **C183 is false of asking for a keyset by its id:** a mint that answers with no keyset at all crashes the program, and exactly then; what it gives for the id is the first keyset of the answer, whatever that one's id is. -/
theorem C183_keyset_by_id_crash (net : Bytes → Option Response) (decode : Bytes → Option (List KeysOf)) (decodeError : Bytes → Option Bytes) (mint id : Bytes) :
    (getKeysetById net decode decodeError mint id = .panic ↔ ∃ body, net (mint ++ b! "/v1/keys/" ++ id) = some ⟨200, body⟩ ∧ decode body = some []) ∧
    ∀ body k rest, net (mint ++ b! "/v1/keys/" ++ id) = some ⟨200, body⟩ → decode body = some (k :: rest) → getKeysetById net decode decodeError mint id = .ok k.keys := by
  obtain ⟨h1, h2, -⟩ := C183_answer_iff net decode decodeError (mint ++ b! "/v1/keys/" ++ id)
  constructor
  · unfold getKeysetById
    cases ha : ask net decode decodeError (mint ++ b! "/v1/keys/" ++ id) with
    | panic => exact absurd ha h2
    | err e =>
      refine ⟨fun h => (by cases h), ?_⟩
      rintro ⟨body, hb, hd⟩
      have := (h1 _).2 ⟨body, hb, hd⟩
      rw [ha] at this
      cases this
    | ok sets =>
      obtain ⟨body, hb, hd⟩ := (h1 sets).1 ha
      cases sets with
      | nil => exact ⟨fun _ => ⟨body, hb, hd⟩, fun _ => rfl⟩
      | cons k rest =>
        refine ⟨fun h => (by cases h), ?_⟩
        rintro ⟨body', hb', hd'⟩
        rw [hb] at hb'
        cases hb'
        rw [hd] at hd'
        cases hd'
  · intro body k rest hb hd
    unfold getKeysetById
    rw [(h1 _).2 ⟨body, hb, hd⟩]

/-- A mint for the examples: it has a keyset in usd and one in sat, and none by id. -/
def sampleNet (url : Bytes) : Option Response :=
  if url = b! "https://m/v1/keys" then some ⟨200, b! "two"⟩ else if url = b! "https://m/v1/keys/x" then some ⟨200, b! "none"⟩
  else if url = b! "https://m/v1/info" then some ⟨500, b! "busy"⟩ else none

/-- *library* the reading of the bodies of `sampleNet`. -/
def sampleDecode (body : Bytes) : Option (List KeysOf) :=
  if body = b! "two" then some [⟨b! "a", b! "usd", []⟩, ⟨b! "b", b! "sat", [(1, b! "02")]⟩] else if body = b! "none" then some [] else none

example : getActiveKeyset sampleNet sampleDecode some (b! "https://m") = .ok (some ⟨b! "b", b! "sat", [(1, b! "02")]⟩) ∧ getKeysetById sampleNet sampleDecode some (b! "https://m") (b! "x") = .panic ∧
    ask sampleNet sampleDecode some (b! "https://m/v1/info") = .err (.status (b! "busy")) ∧ ask sampleNet sampleDecode some (b! "https://n") = .err .request := by decide +kernel

/-! ## Swaps -/

theorem construct_ok_iff {keys : List Nat} : ∀ (outs : List Output) (sigs : List Sig),
    ((∃ ps, construct keys outs sigs = .ok ps) ↔ sigs.length ≤ outs.length ∧ ∀ s ∈ sigs, s.amount ∈ keys)
  | outs, [] => by cases outs <;> simp [construct]
  | [], s :: ss => by
    by_cases h : s.amount ∈ keys <;> simp [construct, h]
  | o :: os, s :: ss => by
    have ih := construct_ok_iff (keys := keys) os ss
    by_cases h : s.amount ∈ keys
    · simp only [construct, h, not_true, if_false, List.length_cons, Nat.add_le_add_iff_right, List.mem_cons, forall_eq_or_imp, true_and]
      rw [← ih]
      cases construct keys os ss <;> simp
    · simp [construct, h]

theorem construct_panic_iff {keys : List Nat} : ∀ (outs : List Output) (sigs : List Sig),
    (construct keys outs sigs = .panic ↔ outs.length < sigs.length ∧ ∀ s ∈ sigs.take (outs.length + 1), s.amount ∈ keys)
  | outs, [] => by cases outs <;> simp [construct]
  | [], s :: ss => by
    by_cases h : s.amount ∈ keys <;> simp [construct, h]
  | o :: os, s :: ss => by
    have ih := construct_panic_iff (keys := keys) os ss
    by_cases h : s.amount ∈ keys
    · simp only [construct, h, not_true, if_false, List.length_cons, Nat.add_lt_add_iff_right, List.take_succ_cons, List.mem_cons, forall_eq_or_imp, true_and]
      rw [← ih]
      cases construct keys os ss <;> simp
    · simp [construct, h]

theorem feePpk_none : ∀ (ks : List Keyset) (ps : List Proof), feePpk ks ps = none ↔ ∃ p ∈ ps, ∀ k ∈ ks, k.id ≠ p.keyset
  | ks, [] => by simp [feePpk]
  | ks, p :: ps => by
    have ih := feePpk_none ks ps
    simp only [feePpk, List.mem_cons, exists_eq_or_imp]
    rw [← ih]
    cases hf : ks.find? (fun k => k.id == p.keyset) with
    | none =>
      have hn : ∀ k ∈ ks, k.id ≠ p.keyset := fun k hk => by simpa using List.find?_eq_none.1 hf k hk
      exact ⟨fun _ => Or.inl hn, fun _ => rfl⟩
    | some k =>
      have hk : ¬ ∀ k ∈ ks, k.id ≠ p.keyset := fun h => h k (List.mem_of_find?_eq_some hf) (by simpa using List.find?_some hf)
      cases hp : feePpk ks ps with
      | none => simp
      | some n => simp only [reduceCtorEq, or_false, false_iff]; exact hk

/-- Specification: the mint's list of keysets leaves out that of one of the proofs. -/
def Unlisted (ks : List Keyset) (ps : List Proof) : Prop := ∃ p ∈ ps, ∀ k ∈ ks, k.id ≠ p.keyset

theorem splitAmounts_panic (ks : List Keyset) (ps : List Proof) (target : Nat) : splitAmounts ks ps target = .panic ↔ Unlisted ks ps := by
  unfold Unlisted
  rw [← feePpk_none]
  unfold splitAmounts calculateFee
  cases feePpk ks ps with
  | none => simp
  | some n =>
    simp only [reduceCtorEq, iff_false]
    intro h
    split at h
    · cases h
    · split at h <;> cases h

/-- **C183 (exactly when a swap crashes).** For every mint, whatever it answers, and all proofs, targets and locks: the swap crashes exactly if the mint's list of keysets leaves out that of one of the proofs, or it gives fewer signatures than there are
outputs for the amount asked for, or more than there are outputs at all, in amounts it has keys for. -/
theorem C183_swap_crash_iff (w : World) (mint : Bytes) (ps : List Proof) (target : Nat) (lock : Option Bytes) :
    swapProofs w mint ps target lock = .panic ↔ ∃ ks, w.keysets mint = some ks ∧ (Unlisted ks ps ∨
      ∃ a c sigs, splitAmounts ks ps target = .ok (a, c) ∧ w.swap mint ps (createOutputs lock (w.split a) ++ createOutputs lock (w.split c)) = some sigs ∧
        (sigs.length < (w.split a).length ∨
          (w.split a).length + (w.split c).length < sigs.length ∧ ∀ s ∈ sigs.take ((w.split a).length + (w.split c).length + 1), s.amount ∈ w.keys mint)) := by
  unfold swapProofs
  cases hk : w.keysets mint with
  | none => simp
  | some ks =>
    simp only [Option.some.injEq, exists_eq_left']
    cases hs : splitAmounts ks ps target with
    | panic => simp [(splitAmounts_panic ks ps target).1 hs]
    | err e =>
      have : ¬ Unlisted ks ps := fun h => by rw [(splitAmounts_panic ks ps target).2 h] at hs; cases hs
      simp [this]
    | ok r =>
      obtain ⟨a, c⟩ := r
      have hu : ¬ Unlisted ks ps := fun h => by rw [(splitAmounts_panic ks ps target).2 h] at hs; cases hs
      have l1 : ∀ l, (createOutputs lock l).length = l.length := fun l => by simp [createOutputs]
      simp only [hu, false_or, Res.ok.injEq, Prod.mk.injEq]
      cases hw : w.swap mint ps (createOutputs lock (w.split a) ++ createOutputs lock (w.split c)) with
      | none =>
        simp only [reduceCtorEq, false_iff, not_exists, not_and]
        rintro a' c' sigs ⟨rfl, rfl⟩ h
        rw [hw] at h; cases h
      | some sigs =>
        have hgoal : (∃ a' c' sigs', (a = a' ∧ c = c') ∧ w.swap mint ps (createOutputs lock (w.split a') ++ createOutputs lock (w.split c')) = some sigs' ∧
            (sigs'.length < (w.split a').length ∨ (w.split a').length + (w.split c').length < sigs'.length ∧ ∀ s ∈ sigs'.take ((w.split a').length + (w.split c').length + 1), s.amount ∈ w.keys mint)) ↔
            (sigs.length < (w.split a).length ∨ (w.split a).length + (w.split c).length < sigs.length ∧ ∀ s ∈ sigs.take ((w.split a).length + (w.split c).length + 1), s.amount ∈ w.keys mint) := by
          constructor
          · rintro ⟨_, _, sigs', ⟨rfl, rfl⟩, h1, h2⟩
            rw [hw] at h1
            cases h1
            exact h2
          · intro h
            exact ⟨a, c, sigs, ⟨rfl, rfl⟩, hw, h⟩
        rw [hgoal]
        simp only [l1]
        by_cases hlt : sigs.length < (w.split a).length
        · simp [hlt]
        · simp only [hlt, if_false, false_or]
          have hp1 := construct_panic_iff (keys := w.keys mint) (createOutputs lock (w.split a)) (sigs.take (w.split a).length)
          have ho1 := construct_ok_iff (keys := w.keys mint) (createOutputs lock (w.split a)) (sigs.take (w.split a).length)
          have hp2 := construct_panic_iff (keys := w.keys mint) (createOutputs lock (w.split c)) (sigs.drop (w.split a).length)
          rw [l1] at hp1 ho1 hp2
          have htk : (sigs.take ((w.split a).length + (w.split c).length + 1)) = sigs.take (w.split a).length ++ (sigs.drop (w.split a).length).take ((w.split c).length + 1) := by
            rw [show (w.split a).length + (w.split c).length + 1 = (w.split a).length + ((w.split c).length + 1) by omega, List.take_add]
          have hall : (∀ s ∈ sigs.take ((w.split a).length + (w.split c).length + 1), s.amount ∈ w.keys mint) ↔
              (∀ s ∈ sigs.take (w.split a).length, s.amount ∈ w.keys mint) ∧ ∀ s ∈ (sigs.drop (w.split a).length).take ((w.split c).length + 1), s.amount ∈ w.keys mint := by
            rw [htk]; simp only [List.mem_append, or_imp, forall_and]
          cases hc1 : construct (w.keys mint) (createOutputs lock (w.split a)) (sigs.take (w.split a).length) with
          | panic =>
            have := (hp1.1 hc1).1
            rw [List.length_take] at this
            omega
          | err e =>
            simp only [reduceCtorEq, false_iff, not_and]
            intro _ h
            obtain ⟨p, hp⟩ := ho1.2 ⟨by rw [List.length_take]; omega, (hall.1 h).1⟩
            rw [hc1] at hp
            cases hp
          | ok p =>
            have hk1 := (ho1.1 ⟨p, hc1⟩).2
            have : (construct (w.keys mint) (createOutputs lock (w.split c)) (sigs.drop (w.split a).length) = .panic) ↔
                ((w.split a).length + (w.split c).length < sigs.length ∧ ∀ s ∈ sigs.take ((w.split a).length + (w.split c).length + 1), s.amount ∈ w.keys mint) := by
              rw [hp2, hall, List.length_drop]
              constructor
              · rintro ⟨h1, h2⟩; exact ⟨by omega, hk1, h2⟩
              · rintro ⟨h1, -, h2⟩; exact ⟨by omega, h2⟩
            rw [← this]
            cases construct (w.keys mint) (createOutputs lock (w.split c)) (sigs.drop (w.split a).length) <;> simp

/-- **C183 (partial: see below).** A mint that lists the keysets of the proofs and gives, for this swap, a signature for each output in its amount, with keys for all: the swap succeeds, without crash or error, with proofs for exactly the amount the split
determined, and change. Missing: mints that answer anything else, for which a swap may crash (`C183_crash`) or hand over less than was asked for (`C183_short`). -/
theorem C183_right_partial (w : World) (hsplit : ∀ a, (w.split a).sum = a) (mint : Bytes) (ps : List Proof) (target : Nat) (lock : Option Bytes) (ks : List Keyset) (a c : Nat) (sigs : List Sig)
    (hk : w.keysets mint = some ks) (hs : splitAmounts ks ps target = .ok (a, c))
    (hw : w.swap mint ps (createOutputs lock (w.split a) ++ createOutputs lock (w.split c)) = some sigs) (ham : sigs.map (·.amount) = w.split a ++ w.split c) (hkeys : ∀ s ∈ sigs, s.amount ∈ w.keys mint) :
    ∃ p ch, swapProofs w mint ps target lock = .ok (p, ch) ∧ total p = a ∧ total ch = c ∧ (∀ x ∈ p ++ ch, x.lock = lock) ∧ p.length = (w.split a).length ∧ ch.length = (w.split c).length := by
  have l1 : ∀ l, (createOutputs lock l).length = l.length := fun l => by simp [createOutputs]
  have hlen : sigs.length = (w.split a).length + (w.split c).length := by simpa using congrArg List.length ham
  obtain ⟨p, hp⟩ := (construct_ok_iff (keys := w.keys mint) (createOutputs lock (w.split a)) (sigs.take (w.split a).length)).2
    ⟨by rw [l1, List.length_take]; omega, fun s hs => hkeys s (List.mem_of_mem_take hs)⟩
  obtain ⟨ch, hc⟩ := (construct_ok_iff (keys := w.keys mint) (createOutputs lock (w.split c)) (sigs.drop (w.split a).length)).2
    ⟨by rw [l1, List.length_drop]; omega, fun s hs => hkeys s (List.mem_of_mem_drop hs)⟩
  obtain ⟨p1, p2⟩ := construct_ok hp
  obtain ⟨c1, c2⟩ := construct_ok hc
  rw [List.map_take, ham, List.take_left' rfl] at p1
  rw [List.map_drop, ham, List.drop_left' rfl] at c1
  have hlock : ∀ (q : List Proof) (l : List Nat) (m : Nat), q.map (·.lock) = ((createOutputs lock l).take m).map (·.lock) → ∀ x ∈ q, x.lock = lock := by
    intro q l m h x hx
    have : x.lock ∈ q.map (·.lock) := List.mem_map_of_mem hx
    rw [h] at this
    obtain ⟨o, ho, hol⟩ := List.mem_map.1 this
    have := List.mem_of_mem_take ho
    simp [createOutputs] at this
    obtain ⟨_, _, rfl⟩ := this
    exact hol.symm
  refine ⟨p, ch, ?_, ?_, ?_, ?_, ?_, ?_⟩
  · unfold swapProofs
    simp only [hk, hs, hw, l1]
    rw [if_neg (by omega), hp, hc]
  · rw [total, p1, hsplit]
  · rw [total, c1, hsplit]
  · intro x hx
    rcases List.mem_append.1 hx with h | h
    · exact hlock p _ _ p2 x h
    · exact hlock ch _ _ c2 x h
  · simpa using congrArg List.length p1
  · simpa using congrArg List.length c1

/-- A mint for the witnesses: like `toyWorld`, with another answer to swaps. -/
def oddWorld (answer : List Output → List Sig) : World := { toyWorld 0 with swap := fun _ _ outs => some (answer outs) }

/-- A wallet for the witnesses: one token worth 8. -/
def eight : List Token := [⟨b! "m", [⟨8, b! "k", none⟩], some (b! "id")⟩]

/-- **C183 is false (crashes).** A mint that answers a swap with no signatures, or with one too many, crashes the program of the one who sends; by then it has the proofs that were sent to it. -/
theorem C183_crash : (send (oddWorld (fun _ => [])) eight 4 [] none).1 = .panic ∧
    (send (oddWorld (fun outs => outs.map (fun o => ⟨o.amount, b! "k"⟩) ++ [⟨1, b! "k"⟩])) eight 4 [] none).1 = .panic := by decide +kernel

/-- **C183 is false (amounts).** A mint that signs for less than it was asked for is believed: `Send` succeeds with proofs worth 1 when asked for 4, and the wallet is left with 1 of its 8. -/
theorem C183_short : ∃ w, (∀ m ps outs, (w.swap m ps outs).map List.length = some outs.length) ∧ send w eight 4 [] none = (.ok [⟨1, b! "k", none⟩], [⟨b! "m", [⟨1, b! "k", none⟩], some (b! "new")⟩]) :=
  ⟨oddWorld (fun outs => outs.map (fun _ => ⟨1, b! "k"⟩)), by simp [oddWorld], by decide +kernel⟩

/-- A swap the partial theorem applies to. -/
example : ∃ p ch, swapProofs (toyWorld 0) (b! "m") [⟨8, b! "k", none⟩] 4 none = .ok (p, ch) ∧ total p = 4 ∧ total ch = 4 := by
  obtain ⟨p, ch, h1, h2, h3, -⟩ := C183_right_partial (toyWorld 0) (toyWorld_honest 0).split (b! "m") [⟨8, b! "k", none⟩] 4 none [⟨b! "k", 0⟩] 4 4 [⟨4, b! "k"⟩, ⟨4, b! "k"⟩]
    rfl (by decide +kernel) (by decide +kernel) (by decide +kernel) (by decide +kernel)
  exact ⟨p, ch, h1, h2, h3⟩

end GoNostr.Nip60
