import Verif.Nip44.Theorems
/-!
# C88, C97: keyers

The keyers of keyer/*.go over the modelled nip44. Key agreement (`GenerateConversationKey`), nip49 and the remote bunker are parameters.
-/

set_option autoImplicit false

namespace GoNostr.Keyer

open Nip44 (Prims)

/-- `nip44.GenerateConversationKey(pub, sec)`, nothing if it fails. -/
abbrev Agree := Bytes → Bytes → Option Bytes

/-! ## KeySigner -/

/-- keyer/plain.go:14-19 `KeySigner`; the map of conversation keys as a function. -/
structure KeySigner where
  sk : Bytes
  cache : Bytes → Option Bytes

/-- keyer/plain.go:42-50, 57-65: look up or compute and store the conversation key. -/
def KeySigner.key (agree : Agree) (ks : KeySigner) (peer : Bytes) : Option Bytes × KeySigner :=
  match ks.cache peer with
  | some ck => (some ck, ks)
  | none =>
    match agree peer ks.sk with
    | none => (none, ks)
    | some ck => (some ck, { ks with cache := fun p => if p = peer then some ck else ks.cache p })

/-- keyer/plain.go:40-51 `Encrypt`. `rnd` is the randomness nip44 draws. -/
def KeySigner.encrypt (P : Prims) (agree : Agree) (ks : KeySigner) (rnd plaintext recipient : Bytes) : Res Unit Bytes × KeySigner :=
  let (ck, ks) := ks.key agree recipient
  match ck with
  | none => (.err (), ks)
  | some ck => (Nip44.encrypt P ck none rnd plaintext, ks)

/-- keyer/plain.go:55-66 `Decrypt`. -/
def KeySigner.decrypt (P : Prims) (agree : Agree) (ks : KeySigner) (ciphertext sender : Bytes) : Res Unit Bytes × KeySigner :=
  let (ck, ks) := ks.key agree sender
  match ck with
  | none => (.err (), ks)
  | some ck => (Nip44.decrypt P ck ciphertext, ks)

/-- A call on a keyer. -/
inductive Call where
  | encrypt (rnd plaintext recipient : Bytes)
  | decrypt (ciphertext sender : Bytes)

/-- The keyer after a history of calls. -/
def KeySigner.after (P : Prims) (agree : Agree) (ks : KeySigner) : List Call → KeySigner
  | [] => ks
  | .encrypt rnd m r :: cs => KeySigner.after P agree (ks.encrypt P agree rnd m r).2 cs
  | .decrypt c s :: cs => KeySigner.after P agree (ks.decrypt P agree c s).2 cs

/-- keyer/plain.go:23-29 `NewPlainKeySigner`: nothing cached. -/
def newKeySigner (sk : Bytes) : KeySigner := ⟨sk, fun _ => none⟩

/-- The cache only holds agreed keys. -/
structure Inv (agree : Agree) (sk : Bytes) (ks : KeySigner) : Prop where
  same : ks.sk = sk
  cached : ∀ p ck, ks.cache p = some ck → agree p sk = some ck

theorem key_spec {agree : Agree} {sk : Bytes} {ks : KeySigner} (h : Inv agree sk ks) (peer : Bytes) :
    (ks.key agree peer).1 = agree peer sk ∧ Inv agree sk (ks.key agree peer).2 := by
  unfold KeySigner.key
  split
  · next ck hc => exact ⟨(h.cached _ _ hc).symm, h⟩
  · rw [h.same]
    split
    · next hn => exact ⟨hn.symm, h⟩
    · next ck hs =>
      refine ⟨hs.symm, rfl, ?_⟩
      intro p ck' hp
      simp only at hp
      split at hp
      · next he => subst he; rw [hs]; exact hp
      · exact h.cached _ _ hp

theorem encrypt_spec (P : Prims) {agree : Agree} {sk : Bytes} {ks : KeySigner} (h : Inv agree sk ks) (rnd m peer : Bytes) :
    (ks.encrypt P agree rnd m peer).1 = (match agree peer sk with | none => .err () | some ck => Nip44.encrypt P ck none rnd m) ∧ Inv agree sk (ks.encrypt P agree rnd m peer).2 := by
  obtain ⟨h1, h2⟩ := key_spec h peer
  unfold KeySigner.encrypt
  rw [← h1]
  cases he : (ks.key agree peer).1 with
  | none => simp only [he]; exact ⟨trivial, h2⟩
  | some ck => simp only [he]; exact ⟨trivial, h2⟩

theorem decrypt_spec (P : Prims) {agree : Agree} {sk : Bytes} {ks : KeySigner} (h : Inv agree sk ks) (c peer : Bytes) :
    (ks.decrypt P agree c peer).1 = (match agree peer sk with | none => .err () | some ck => Nip44.decrypt P ck c) ∧ Inv agree sk (ks.decrypt P agree c peer).2 := by
  obtain ⟨h1, h2⟩ := key_spec h peer
  unfold KeySigner.decrypt
  rw [← h1]
  cases he : (ks.key agree peer).1 with
  | none => simp only [he]; exact ⟨trivial, h2⟩
  | some ck => simp only [he]; exact ⟨trivial, h2⟩

theorem after_inv (P : Prims) {agree : Agree} {sk : Bytes} : ∀ (cs : List Call) {ks : KeySigner}, Inv agree sk ks → Inv agree sk (ks.after P agree cs)
  | [], _, h => h
  | .encrypt rnd m r :: cs, _, h => after_inv P cs (encrypt_spec P h rnd m r).2
  | .decrypt c s :: cs, _, h => after_inv P cs (decrypt_spec P h c s).2

theorem new_inv (agree : Agree) (sk : Bytes) : Inv agree sk (newKeySigner sk) := ⟨rfl, fun _ _ h => by cases h⟩

/-- **C88 (plain keys).** Two parties whose key agreement is symmetric understand each other: whatever both keyers did before, what the one encrypts for the other decrypts to the same text.
`pkA`, `pkB` are the public keys of `skA`, `skB`. -/
theorem C88_plain_key (P : Prims) (agree : Agree) (skA pkA skB pkB ck : Bytes) (hA : agree pkB skA = some ck) (hB : agree pkA skB = some ck)
    (histA histB : List Call) (rnd m : Bytes) (hr : rnd.length = 32) (h1 : 1 ≤ m.length) (h2 : m.length ≤ 65535) :
    ∃ c, (((newKeySigner skA).after P agree histA).encrypt P agree rnd m pkB).1 = .ok c ∧
      (((newKeySigner skB).after P agree histB).decrypt P agree c pkA).1 = .ok m := by
  obtain ⟨c, e1, e2⟩ := Nip44.C56_roundtrip P ck none rnd m (fun _ h => by cases h) hr h1 h2
  refine ⟨c, ?_, ?_⟩
  · rw [(encrypt_spec P (after_inv P histA (new_inv agree skA)) rnd m pkB).1, hA]
    exact e1
  · rw [(decrypt_spec P (after_inv P histB (new_inv agree skB)) c pkA).1, hB]
    exact e2

/-- **C88 (plain keys), one keyer.** A keyer reads back what it encrypted itself, with any calls in between. -/
theorem C88_plain_key_own (P : Prims) (agree : Agree) (sk peer ck : Bytes) (hk : agree peer sk = some ck)
    (hist later : List Call) (rnd m : Bytes) (hr : rnd.length = 32) (h1 : 1 ≤ m.length) (h2 : m.length ≤ 65535) :
    ∃ c, (((newKeySigner sk).after P agree hist).encrypt P agree rnd m peer).1 = .ok c ∧
      (((((newKeySigner sk).after P agree hist).encrypt P agree rnd m peer).2.after P agree later).decrypt P agree c peer).1 = .ok m := by
  obtain ⟨c, e1, e2⟩ := Nip44.C56_roundtrip P ck none rnd m (fun _ h => by cases h) hr h1 h2
  have hs := encrypt_spec P (after_inv P hist (new_inv agree sk)) rnd m peer
  refine ⟨c, ?_, ?_⟩
  · rw [hs.1, hk]
    exact e1
  · rw [(decrypt_spec P (after_inv P later hs.2) c peer).1, hk]
    exact e2

/-- A symmetric agreement for the examples: a public key is the secret key. -/
def toyAgree : Agree := fun pub sec => if pub = [] then none else some (List.zipWith (· ^^^ ·) pub sec)

example : toyAgree (b! "bb") (b! "aa") = some [3, 3] ∧ toyAgree (b! "aa") (b! "bb") = some [3, 3] := by decide +kernel

example : ∃ c, (((newKeySigner (b! "aa")).after Nip44.samplePrims toyAgree [.encrypt [] (b! "x") (b! "bb"), .decrypt [] (b! "cc")]).encrypt Nip44.samplePrims toyAgree (List.replicate 32 1) (b! "hi") (b! "bb")).1 = .ok c ∧
    ((newKeySigner (b! "bb")).decrypt Nip44.samplePrims toyAgree c (b! "aa")).1 = .ok (b! "hi") :=
  C88_plain_key Nip44.samplePrims toyAgree (b! "aa") (b! "aa") (b! "bb") (b! "bb") [3, 3] (by decide +kernel) (by decide +kernel) _ [] _ _ (by simp) (by decide) (by decide)

/-! ## EncryptedKeySigner -/

/-- keyer/encrypted.go:17-21; the password callback and nip49 give the secret key, or nothing. -/
structure EncryptedKeySigner where
  pk : Bytes

/-- keyer/encrypted.go:57-68 `Encrypt`; `unlock` is the secret key nip49 gives for the password of this call. -/
def EncryptedKeySigner.encrypt (P : Prims) (agree : Agree) (unlock : Option Bytes) (rnd plaintext recipient : Bytes) : Res Unit Bytes :=
  match unlock with
  | none => .err ()
  | some sk => match agree recipient sk with
    | none => .err ()
    | some ck => Nip44.encrypt P ck none rnd plaintext

/-- keyer/encrypted.go:72-83 `Decrypt`: it *encrypts* its own named result, which is still empty. -/
def EncryptedKeySigner.decrypt (P : Prims) (agree : Agree) (unlock : Option Bytes) (rnd _ciphertext sender : Bytes) : Res Unit Bytes :=
  match unlock with
  | none => .err ()
  | some sk => match agree sender sk with
    | none => .err ()
    | some ck => Nip44.encrypt P ck none rnd []

/-- **C88 is false for encrypted keys.** `Decrypt` fails for every ciphertext, password and peer. -/
theorem C88_encrypted_key_never_decrypts (P : Prims) (agree : Agree) (unlock : Option Bytes) (rnd ciphertext sender : Bytes) :
    EncryptedKeySigner.decrypt P agree unlock rnd ciphertext sender = .err () := by
  unfold EncryptedKeySigner.decrypt
  split
  · rfl
  · split
    · rfl
    · simp [Nip44.encrypt, Nip44.pad]

/-- **C88 (encrypted keys), part.** Its `Encrypt` is right: a plain keyer on the other side reads the text. -/
theorem C88_encrypted_key_encrypts_partial (P : Prims) (agree : Agree) (skA pkA skB pkB ck : Bytes) (hA : agree pkB skA = some ck) (hB : agree pkA skB = some ck)
    (hist : List Call) (rnd m : Bytes) (hr : rnd.length = 32) (h1 : 1 ≤ m.length) (h2 : m.length ≤ 65535) :
    ∃ c, EncryptedKeySigner.encrypt P agree (some skA) rnd m pkB = .ok c ∧ (((newKeySigner skB).after P agree hist).decrypt P agree c pkA).1 = .ok m := by
  obtain ⟨c, e1, e2⟩ := Nip44.C56_roundtrip P ck none rnd m (fun _ h => by cases h) hr h1 h2
  refine ⟨c, ?_, ?_⟩
  · simp only [EncryptedKeySigner.encrypt, hA, e1]
  · rw [(decrypt_spec P (after_inv P hist (new_inv agree skB)) c pkA).1, hB]
    exact e2

/-! ## BunkerSigner -/

/-- The remote calls of a bunker client (nip46/client.go:200-214): the method, the peer and the text. -/
abbrev Rpc := Bytes → Bytes → Bytes → Res Unit Bytes

/-- keyer/bunker.go:47-49 `Encrypt`. -/
def bunkerEncrypt (rpc : Rpc) (plaintext recipient : Bytes) : Res Unit Bytes := rpc (b! "nip44_encrypt") recipient plaintext

/-- keyer/bunker.go:52-54 `Decrypt`: it calls `NIP44Encrypt`. -/
def bunkerDecrypt (rpc : Rpc) (ciphertext sender : Bytes) : Res Unit Bytes := rpc (b! "nip44_encrypt") sender ciphertext

/-- A bunker that does exactly what it is asked to. -/
def faithfulRpc (P : Prims) (key : Bytes → Option Bytes) (rnd : Bytes) : Rpc := fun method peer text =>
  match key peer with
  | none => .err ()
  | some ck =>
    if method = b! "nip44_encrypt" then Nip44.encrypt P ck none rnd text
    else if method = b! "nip44_decrypt" then Nip44.decrypt P ck text
    else .err ()

theorem b64_grows : ∀ (b : Bytes), b.length ≤ (b64Enc b).length
  | [] => by simp
  | [_] => by simp [b64Enc]
  | [_, _] => by simp [b64Enc]
  | _ :: _ :: _ :: rest => by
    have := b64_grows rest
    simp [b64Enc]
    omega

theorem encrypt_grows (P : Prims) (key rnd m c : Bytes) (h : Nip44.encrypt P key none rnd m = .ok c) : m.length < c.length := by
  unfold Nip44.encrypt at h
  rw [if_neg (by simp)] at h
  simp only at h
  split at h
  · cases h
  · next padded hp =>
    injection h with h
    subst h
    obtain ⟨h1, h2, h3⟩ := Nip44.C55_padded_length m padded hp
    refine Nat.lt_of_lt_of_le ?_ (b64_grows _)
    simp only [List.length_cons, List.length_append, Nip44.chacha_length]
    have : m.length + 2 ≤ padded.length := by
      unfold Nip44.pad at hp
      simp only at hp
      split at hp
      · cases hp
      · injection hp with hp
        subst hp
        simp
    omega

/-- **C88 is false for bunkers.** Whatever the text and the peer, a keyer over a faithful bunker never gets back what it encrypted. -/
theorem C88_bunker_never_decrypts (P : Prims) (key : Bytes → Option Bytes) (rnd1 rnd2 m c peer : Bytes)
    (h : bunkerEncrypt (faithfulRpc P key rnd1) m peer = .ok c) : bunkerDecrypt (faithfulRpc P key rnd2) c peer ≠ .ok m := by
  intro hd
  unfold bunkerEncrypt faithfulRpc at h
  unfold bunkerDecrypt faithfulRpc at hd
  cases hk : key peer with
  | none => rw [hk] at h; cases h
  | some ck =>
    rw [hk] at h hd
    simp only [if_true] at h hd
    have h1 := encrypt_grows P ck rnd1 m c h
    have h2 := encrypt_grows P ck rnd2 c m hd
    omega

example : ∃ c, bunkerEncrypt (faithfulRpc Nip44.samplePrims (fun _ => some [1]) (List.replicate 32 5)) (b! "hi") (b! "bob") = .ok c := by
  obtain ⟨c, h, -⟩ := Nip44.C56_roundtrip Nip44.samplePrims [1] none (List.replicate 32 5) (b! "hi") (fun _ h => by cases h) (by simp) (by decide) (by decide)
  exact ⟨c, by simp only [bunkerEncrypt, faithfulRpc, if_true]; exact h⟩

/-! ## C97: the key a keyer reports -/

/-- The calls that read or write the cached key of an `EncryptedKeySigner`; each is given what nip49 unlocks (keyer/encrypted.go:26-53). `sign` has the public key field of the event before signing. -/
inductive PkCall where
  | getPublicKey (unlock : Option Bytes)
  | sign (unlock : Option Bytes) (evtPubkey : Bytes)

/-- keyer/encrypted.go:26-41 `GetPublicKey`. `pub` is `nostr.GetPublicKey`. -/
def EncryptedKeySigner.getPublicKey (pub : Bytes → Option Bytes) (es : EncryptedKeySigner) (unlock : Option Bytes) : Option Bytes × EncryptedKeySigner :=
  if es.pk ≠ [] then (some es.pk, es)
  else match unlock with
    | none => (none, es)
    | some key => match pub key with
      | none => (none, es)
      | some pk => (some pk, ⟨pk⟩)

/-- keyer/encrypted.go:45-53 `SignEvent`: the event's public key *before* signing is remembered. The result is the public key of the signed event (`Event.Sign` sets it, C06). -/
def EncryptedKeySigner.signEvent (pub : Bytes → Option Bytes) (es : EncryptedKeySigner) (unlock : Option Bytes) (evtPubkey : Bytes) : Option Bytes × EncryptedKeySigner :=
  match unlock with
  | none => (none, es)
  | some sk => (pub sk, ⟨evtPubkey⟩)

/-- The signer after a call. -/
def EncryptedKeySigner.after (pub : Bytes → Option Bytes) (es : EncryptedKeySigner) : List PkCall → EncryptedKeySigner
  | [] => es
  | .getPublicKey u :: cs => EncryptedKeySigner.after pub (es.getPublicKey pub u).2 cs
  | .sign u e :: cs => EncryptedKeySigner.after pub (es.signEvent pub u e).2 cs

/-- **C97, part.** If the password always unlocks the same key and every event given to `SignEvent` has an empty public key or the right one, then after any calls `GetPublicKey` reports the key that signs.
Missing: events that arrive with another key, `C97_wrong_key_cached`. (A plain keyer keeps both keys from its creation on and has nothing to go wrong.) -/
theorem C97_encrypted_key_partial (pub : Bytes → Option Bytes) (sk pk : Bytes) (hpk : pub sk = some pk) (calls : List PkCall)
    (hu : ∀ c ∈ calls, c = .getPublicKey none ∨ c = .getPublicKey (some sk) ∨ c = .sign none [] ∨ c = .sign none pk ∨ c = .sign (some sk) [] ∨ c = .sign (some sk) pk) :
    (((⟨[]⟩ : EncryptedKeySigner).after pub calls).getPublicKey pub (some sk)).1 = some pk := by
  have key : ∀ (cs : List PkCall) (es : EncryptedKeySigner), (∀ c ∈ cs, c = .getPublicKey none ∨ c = .getPublicKey (some sk) ∨ c = .sign none [] ∨ c = .sign none pk ∨ c = .sign (some sk) [] ∨ c = .sign (some sk) pk) →
      (es.pk = [] ∨ es.pk = pk) → ((es.after pub cs).pk = [] ∨ (es.after pub cs).pk = pk) := by
    intro cs
    induction cs with
    | nil => intro es _ h; exact h
    | cons c cs ih =>
      intro es hc h
      have hrest := fun c hm => hc c (List.mem_cons_of_mem _ hm)
      rcases hc c List.mem_cons_self with rfl | rfl | rfl | rfl | rfl | rfl <;> simp only [EncryptedKeySigner.after] <;> refine ih _ hrest ?_
      · unfold EncryptedKeySigner.getPublicKey
        split <;> exact h
      · unfold EncryptedKeySigner.getPublicKey
        split
        · exact h
        · simp only [hpk]; exact .inr trivial
      · exact h
      · exact h
      · exact .inl rfl
      · exact .inr rfl
  have := key calls ⟨[]⟩ hu (.inl rfl)
  unfold EncryptedKeySigner.getPublicKey
  split
  · next hne =>
    rcases this with h | h
    · exact absurd h hne
    · rw [h]
  · simp [hpk]

/-- **C97 is false for encrypted keys.** Signing an event that carries somebody else's public key makes the keyer report that key from then on, although the signed event has the right one. -/
theorem C97_wrong_key_cached (pub : Bytes → Option Bytes) (sk other : Bytes) (hne : other ≠ []) (later : Option Bytes) (es : EncryptedKeySigner) :
    (es.signEvent pub (some sk) other).1 = pub sk ∧ ((es.signEvent pub (some sk) other).2.getPublicKey pub later).1 = some other := by
  simp [EncryptedKeySigner.signEvent, EncryptedKeySigner.getPublicKey, hne]

example : (((⟨[]⟩ : EncryptedKeySigner).after (fun s => some (s ++ b! ".pub")) [.sign (some (b! "k")) [], .getPublicKey none, .sign (some (b! "k")) (b! "k.pub")]).getPublicKey
    (fun s => some (s ++ b! ".pub")) (some (b! "k"))).1 = some (b! "k.pub") := by decide +kernel

end GoNostr.Keyer
