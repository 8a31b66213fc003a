import Verif.Nip19.Theorems
/-!
# C92: whatever `Decode` accepts is well formed
-/

set_option autoImplicit false

namespace GoNostr.Nip19

/-- Spec: 64 lowercase hex digits. -/
def Key64 (h : Bytes) : Prop := h.length = 64 ∧ ∀ c ∈ h, (48 ≤ c ∧ c ≤ 57) ∨ (97 ≤ c ∧ c ≤ 102)

/-- Spec: the value has the dynamic type that belongs to its prefix and its keys and ids are 64 lowercase hex digits. -/
def Wellformed (pre : Bytes) : Value → Prop
  | .str s => (pre = b! "npub" ∨ pre = b! "nsec" ∨ pre = b! "note") ∧ Key64 s
  | .profile p => pre = b! "nprofile" ∧ Key64 p.publicKey
  | .event p => pre = b! "nevent" ∧ Key64 p.id ∧ (p.author = [] ∨ Key64 p.author) ∧ 0 ≤ p.kind ∧ p.kind < 4294967296
  | .entity p => pre = b! "naddr" ∧ Key64 p.publicKey ∧ p.identifier ≠ [] ∧ 0 < p.kind ∧ p.kind < 4294967296

theorem key64_hexEnc (v : Bytes) (h : v.length = 32) : Key64 (hexEnc v) := by
  exact ⟨by rw [length_hexEnc]; omega, hexEnc_lower v⟩

theorem beUint32_lt (v : Bytes) (k : Nat) (h : beUint32 v = .val k) : k < 4294967296 := by
  unfold beUint32 at h
  split at h
  · rename_i a b c d _
    simp only [Out.val.injEq] at h
    have := a.toNat_lt; have := b.toNat_lt; have := c.toNat_lt; have := d.toNat_lt
    omega
  · cases h

theorem decodeProfile_wf : ∀ (fuel : Nat) (data : Bytes) (p r : ProfilePointer), (p.publicKey = [] ∨ Key64 p.publicKey) →
    decodeProfile fuel data p = .ok r → Key64 r.publicKey
  | 0, _, _, _, _, h => by simp [decodeProfile] at h
  | fuel + 1, data, p, r, hp, h => by
    unfold decodeProfile at h
    split at h
    · split at h
      · cases h
      · rename_i hne
        simp only [Res.ok.injEq] at h; subst h
        exact hp.resolve_left hne
    · simp only at h
      split at h
      · split at h
        · cases h
        · rename_i hl
          exact decodeProfile_wf fuel _ _ r (Or.inr (key64_hexEnc _ (by omega))) h
      · split at h
        · exact decodeProfile_wf fuel _ _ r (by exact hp) h
        · exact decodeProfile_wf fuel _ _ r hp h

theorem decodeEvent_wf : ∀ (fuel : Nat) (data : Bytes) (p r : EventPointer), (p.id = [] ∨ Key64 p.id) → (p.author = [] ∨ Key64 p.author) →
    (0 ≤ p.kind ∧ p.kind < 4294967296) → decodeEvent fuel data p = .ok r →
    Key64 r.id ∧ (r.author = [] ∨ Key64 r.author) ∧ 0 ≤ r.kind ∧ r.kind < 4294967296
  | 0, _, _, _, _, _, _, h => by simp [decodeEvent] at h
  | fuel + 1, data, p, r, hp, ha, hk, h => by
    unfold decodeEvent at h
    split at h
    · split at h
      · cases h
      · rename_i hne
        simp only [Res.ok.injEq] at h; subst h
        exact ⟨hp.resolve_left hne, ha, hk⟩
    · simp only at h
      split at h
      · split at h
        · cases h
        · rename_i hl
          exact decodeEvent_wf fuel _ _ r (Or.inr (key64_hexEnc _ (by omega))) (by exact ha) (by exact hk) h
      · split at h
        · exact decodeEvent_wf fuel _ _ r (by exact hp) (by exact ha) (by exact hk) h
        · split at h
          · split at h
            · cases h
            · rename_i hl
              exact decodeEvent_wf fuel _ _ r (by exact hp) (Or.inr (key64_hexEnc _ (by omega))) (by exact hk) h
          · split at h
            · split at h
              · cases h
              · split at h
                · cases h
                · rename_i k hb
                  have := beUint32_lt _ _ hb
                  exact decodeEvent_wf fuel _ _ r (by exact hp) (by exact ha) (by constructor <;> simp only <;> omega) h
            · exact decodeEvent_wf fuel _ _ r hp ha hk h

theorem decodeEntity_wf : ∀ (fuel : Nat) (data : Bytes) (p r : EntityPointer), (p.publicKey = [] ∨ Key64 p.publicKey) →
    (0 ≤ p.kind ∧ p.kind < 4294967296) → decodeEntity fuel data p = .ok r →
    Key64 r.publicKey ∧ r.identifier ≠ [] ∧ 0 < r.kind ∧ r.kind < 4294967296
  | 0, _, _, _, _, _, h => by simp [decodeEntity] at h
  | fuel + 1, data, p, r, hp, hk, h => by
    unfold decodeEntity at h
    split at h
    · split at h
      · cases h
      · rename_i hne
        simp only [Res.ok.injEq] at h; subst h
        simp only [not_or] at hne
        exact ⟨hp.resolve_left hne.2.2, hne.2.1, by omega, hk.2⟩
    · simp only at h
      split at h
      · exact decodeEntity_wf fuel _ _ r (by exact hp) (by exact hk) h
      · split at h
        · exact decodeEntity_wf fuel _ _ r (by exact hp) (by exact hk) h
        · split at h
          · split at h
            · cases h
            · rename_i hl
              exact decodeEntity_wf fuel _ _ r (Or.inr (key64_hexEnc _ (by omega))) (by exact hk) h
          · split at h
            · split at h
              · cases h
              · rename_i k hb
                have := beUint32_lt _ _ hb
                exact decodeEntity_wf fuel _ _ r (by exact hp) (by constructor <;> simp only <;> omega) h
            · exact decodeEntity_wf fuel _ _ r hp hk h

/-- **C92.** Whatever string `Decode` accepts, from whatever source, the value it returns is well formed. -/
theorem C92_decode_wellformed (code pre : Bytes) (v : Value) (h : decode code = .ok (pre, v)) : Wellformed pre v := by
  unfold decode at h
  cases hb : bechDecode code with
  | panic => rw [hb] at h; simp at h
  | err e => rw [hb] at h; simp at h
  | ok q =>
    obtain ⟨p0, bits5⟩ := q
    rw [hb, Res.ok_bind] at h
    simp only at h
    cases hc : convertBits bits5 5 8 false with
    | panic => rw [hc] at h; simp at h
    | err e => rw [hc] at h; simp at h
    | ok data =>
      rw [hc, Res.ok_bind] at h
      unfold decodeData at h
      split at h
      · rename_i hpre
        split at h
        · simp at h
        · rename_i hl
          simp only [Res.ok.injEq, Prod.mk.injEq] at h
          obtain ⟨rfl, rfl⟩ := h
          exact ⟨hpre, key64_hexEnc _ (by omega)⟩
      · split at h
        · cases hp : decodeProfile ((bytesOf data).length + 1) (bytesOf data) { publicKey := [] } with
          | panic => rw [hp] at h; simp at h
          | err e => rw [hp] at h; simp at h
          | ok p =>
            rw [hp] at h
            simp only [Res.ok_bind, Res.pure_eq, Res.ok.injEq, Prod.mk.injEq] at h
            obtain ⟨rfl, rfl⟩ := h
            rename_i hpre
            exact ⟨hpre, decodeProfile_wf _ _ _ _ (Or.inl rfl) hp⟩
        · split at h
          · cases hp : decodeEvent ((bytesOf data).length + 1) (bytesOf data) { id := [] } with
            | panic => rw [hp] at h; simp at h
            | err e => rw [hp] at h; simp at h
            | ok p =>
              rw [hp] at h
              simp only [Res.ok_bind, Res.pure_eq, Res.ok.injEq, Prod.mk.injEq] at h
              obtain ⟨rfl, rfl⟩ := h
              rename_i hpre
              exact ⟨hpre, decodeEvent_wf _ _ _ _ (Or.inl rfl) (Or.inl rfl) (by decide) hp⟩
          · split at h
            · cases hp : decodeEntity ((bytesOf data).length + 1) (bytesOf data) { publicKey := [] } with
              | panic => rw [hp] at h; simp at h
              | err e => rw [hp] at h; simp at h
              | ok p =>
                rw [hp] at h
                simp only [Res.ok_bind, Res.pure_eq, Res.ok.injEq, Prod.mk.injEq] at h
                obtain ⟨rfl, rfl⟩ := h
                rename_i hpre
                exact ⟨hpre, decodeEntity_wf _ _ _ _ (Or.inl rfl) (by decide) hp⟩
            · simp at h

/-- There is a code of every kind to which this applies, e.g. an author's `naddr`. -/
example : ∃ code p, encodeEntity sampleHex 30023 (b! "post") [b! "wss://r"] = .ok code ∧ decode code = .ok (b! "naddr", .entity p) ∧
    p.kind = 30023 := by
  obtain ⟨c, h1, h2⟩ := C53_naddr_roundtrip_partial sampleHex (b! "post") 30023 [b! "wss://r"] (by decide +kernel) (by decide) (by decide) (by decide) (by decide) (by decide)
  exact ⟨c, ⟨sampleHex, 30023, b! "post", relaysOf [b! "wss://r"]⟩, h1, h2, rfl⟩

end GoNostr.Nip19
