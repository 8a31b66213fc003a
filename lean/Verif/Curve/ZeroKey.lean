import Verif.Curve.Remote
/-!
# C188: what a remote-signing client encrypts with

`NewBunker` (nip46/client.go:86-112) ignores the errors of the key agreement: the conversation key is then 32 zero bytes. The client still signs and sends its requests.
-/

set_option autoImplicit false

namespace GoNostr.Curve.Remote.ZeroKey

open Bunker (Request Response)

attribute [local irreducible] fieldP groupN toBE ser scalarOf

noncomputable section

/-- Specification: a key everybody knows. -/
def zeros : Bytes := List.replicate 32 0

/-- Specification: 32 bytes in hexadecimal that are the first coordinate of a point of the curve. -/
def IsPublicKey (target : Bytes) : Prop := ∃ b P, hexDec target = some b ∧ parseCompressed (2 :: b) = some P

theorem request_content {E : Env} {target sk nonce : Bytes} {now : Int} {req : Request} {e : Event} (h : request E target sk nonce now req = some e) :
    Nip44.encrypt E.P (convKey E target sk) none nonce (E.W.encReq req) = .ok e.content := by
  unfold request at h
  cases hc : Nip44.encrypt E.P (convKey E target sk) none nonce (E.W.encReq req) with
  | panic => rw [hc] at h; cases h
  | err x => rw [hc] at h; cases h
  | ok c =>
    rw [hc] at h
    simp only at h
    unfold signEvent at h
    cases hd : hexDec sk with
    | none => simp [hd] at h
    | some kb =>
      simp only [hd] at h
      split at h
      · rename_i e' hs
        split at hs
        · cases hs
        · cases hs
          cases h
          rfl
      · cases h

/-- C188: with a private key, the key agreement fails exactly if the target is not a public key. -/
theorem C188_fails_iff (E : Env) (sk target : Bytes) (k : IsPrivateKey sk) : generateConversationKey E.extract target sk = none ↔ ¬ IsPublicKey target := by
  obtain ⟨n, h1, h2, rfl⟩ := k
  have hl : (toBE 32 n).length = 32 := toBE_length 32 n
  have hchk : ¬ (¬ goLt (hexEnc (toBE 32 n)) orderHex ∨ hexEnc (toBE 32 n) = List.replicate 64 48) := by
    rw [check_hex hl, Classical.not_not]
    rw [beVal_toBE 32 n (Nat.lt_trans h2 n_lt)]
    exact ⟨h1, h2⟩
  unfold generateConversationKey
  rw [if_neg hchk]
  unfold computeSharedSecret
  rw [hexDec_hexEnc, hexDec_02]
  unfold IsPublicKey
  cases hd : hexDec target with
  | none => simp
  | some b =>
    simp only [Option.map_some]
    cases hp : parseCompressed (2 :: b) with
    | none => simp [hp]
    | some P => simp [hp]

/-- C188: a key written as npub is not a public key in this sense. -/
theorem C188_npub (rest : Bytes) : ¬ IsPublicKey (b! "npub" ++ rest) := by
  rintro ⟨b, P, h, -⟩
  have : hexDec (b! "npub" ++ rest) = none := by
    show hexDec (110 :: 112 :: 117 :: 98 :: rest) = none
    have h0 : hexVal 110 = none := by decide +kernel
    simp only [hexDec, h0]
  rw [this] at h
  cases h

/-- C188 (partial): between two private keys, a request sent to the public key of the signer is encrypted with the key that the signer computes, and can be read with it. Missing from the English property: other targets, see `C188_anyone_reads`; and that others cannot read it, which is an assumption about the primitives. -/
theorem C188_signer_reads_partial (E : Env) (hW : E.W.Good) {skC skS pkC pkS : Bytes} (kC : IsPrivateKey skC) (kS : IsPrivateKey skS) (hC : getPublicKey (bip340 E.L) skC = some pkC) (hS : getPublicKey (bip340 E.L) skS = some pkS)
    (nonce : Bytes) (hn : nonce.length = 32) (now : Int) (req : Request) (hfit : (E.W.encReq req).length ≤ 65535) (e : Event) (h : request E pkS skC nonce now req = some e) :
    ∃ ck, generateConversationKey E.extract pkC skS = some ck ∧ Nip44.decrypt E.P ck e.content = .ok (E.W.encReq req) := by
  obtain ⟨s, ck, -, -, -, c1, c2⟩ := secrets E kC kS hC hS
  have hc := request_content h
  have hk : convKey E pkS skC = ck := by rw [convKey, c1]; rfl
  rw [hk] at hc
  obtain ⟨p, p1, p2⟩ := Nip44.C56_roundtrip E.P ck none nonce (E.W.encReq req) (by simp) hn (List.length_pos_iff.2 (hW.req req).2) hfit
  rw [hc] at p1
  cases p1
  exact ⟨ck, c2, p2⟩

/-- C188 is false: to a target that is not a public key, such as an npub, the client does send its requests, signed; and anyone can read them, with a key of zeros. -/
theorem C188_anyone_reads (E : Env) (hW : E.W.Good) (hL : ∀ sk h, E.L.nonce sk h % groupN ≠ 0) {sk pk : Bytes} (k : IsPrivateKey sk) (hp : getPublicKey (bip340 E.L) sk = some pk) (target : Bytes) (ht : ¬ IsPublicKey target)
    (nonce : Bytes) (hn : nonce.length = 32) (now : Int) (req : Request) (hfit : (E.W.encReq req).length ≤ 65535) :
    ∃ e, request E target sk nonce now req = some e ∧ e.pubkey = pk ∧ checkSignature E.H (bip340 E.L) e = some true ∧ Nip44.decrypt E.P zeros e.content = .ok (E.W.encReq req) := by
  have hk : convKey E target sk = zeros := by rw [convKey, (C188_fails_iff E sk target k).2 ht]; rfl
  obtain ⟨p, p1, p2⟩ := Nip44.C56_roundtrip E.P zeros none nonce (E.W.encReq req) (by simp) hn (List.length_pos_iff.2 (hW.req req).2) hfit
  obtain ⟨e, h1, h2, -, -, h5, -, h7, -⟩ := sign_ok E.H E.L hL k hp ⟨[], [], now, 24133, [[b! "p", target]], p, []⟩
  refine ⟨e, ?_, h2, h7, by rw [h5]; exact p2⟩
  unfold request
  rw [hk, p1]
  simp only [h1]

/-- C188 is false: and anyone can answer: such a client takes whatever is encrypted with a key of zeros for its signer's response. -/
theorem C188_anyone_answers (E : Env) (hW : E.W.Good) {sk : Bytes} (k : IsPrivateKey sk) (target : Bytes) (ht : ¬ IsPublicKey target) (nonce : Bytes) (hn : nonce.length = 32) (r : Response) (hfit : (E.W.encResp r).length ≤ 65535) :
    ∃ c, Nip44.encrypt E.P zeros none nonce (E.W.encResp r) = .ok c ∧ (reader E target sk).read 24133 c = .val (some ⟨r.id, r.error, r.result⟩) := by
  have hk : convKey E target sk = zeros := by rw [convKey, (C188_fails_iff E sk target k).2 ht]; rfl
  obtain ⟨p, p1, p2⟩ := Nip44.C56_roundtrip E.P zeros none nonce (E.W.encResp r) (by simp) hn (List.length_pos_iff.2 (hW.resp r).2) hfit
  refine ⟨p, p1, ?_⟩
  simp [Client.Reader.read, reader, hk, p2, (hW.resp r).1]

/-- Non-vacuity: a generated key and an npub as the target. -/
example (r : Bytes) : ∃ sk pk, IsPrivateKey sk ∧ getPublicKey (bip340 toyEnv.L) sk = some pk ∧ toyEnv.W.Good ∧ (∀ sk h, toyEnv.L.nonce sk h % groupN ≠ 0) ∧ ¬ IsPublicKey (b! "npub1") ∧
    (toyEnv.W.encReq ⟨b! "1", b! "ping", []⟩).length ≤ 65535 := by
  obtain ⟨pk, h, -⟩ := C164_generated_valid toyEnv.L r
  refine ⟨_, pk, generated_key r, h, plainWire_good, fun _ _ => ?_, C188_npub (b! "1"), by decide +kernel⟩
  have : 1 % groupN ≠ 0 := by decide +kernel
  exact this

end

end GoNostr.Curve.Remote.ZeroKey
