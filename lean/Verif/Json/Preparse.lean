import Verif.Json.Envelopes
import Verif.Helpers.Theorems
import Verif.Tags.Model
/-!
# C18: what the reader extracts from an EVENT message before parsing it

relay.go:233-250 looks for the id, the public key, the `d` tag and the timestamp of an event in the text of the message (helpers.go:121-217, modelled in Helpers/Model), to decide about duplicates before
the message is parsed. Here this is compared with the parsed event.
-/

set_option autoImplicit false

namespace GoNostr.Json

/-! ## Where a pattern does not occur -/

/-- The pattern does not occur in `a ++ rest` at any position within `a`. -/
def NoOcc (pat a rest : Bytes) : Prop := ∀ j < a.length, ¬ OccursAt pat (a ++ rest) j

theorem NoOcc.nil (pat rest : Bytes) : NoOcc pat [] rest := fun j hj => by simp at hj

theorem NoOcc.cons {pat a rest : Bytes} {c : UInt8} (h0 : pat.isPrefixOf (c :: (a ++ rest)) = false) (h : NoOcc pat a rest) : NoOcc pat (c :: a) rest := by
  intro j hj ho
  cases j with
  | zero => rw [List.cons_append, occursAt_zero, h0] at ho; cases ho
  | succ j => exact h j (by simpa using hj) (occursAt_succ.1 ho)

theorem NoOcc.append {pat a b rest : Bytes} (h1 : NoOcc pat a (b ++ rest)) (h2 : NoOcc pat b rest) : NoOcc pat (a ++ b) rest := by
  induction a with
  | nil => exact h2
  | cons c a ih =>
    refine .cons ?_ (ih ?_)
    · have := h1 0 (by simp)
      rw [List.cons_append, occursAt_zero, Bool.not_eq_true] at this
      exact (congrArg (fun t => pat.isPrefixOf (c :: t)) (List.append_assoc a b rest)).trans this
    · intro j hj ho
      exact h1 (j + 1) (by simpa using hj) (by rw [List.cons_append]; exact occursAt_succ.2 ho)

/-- No occurrence can start where the first byte is missing. -/
theorem NoOcc.free {p : UInt8} {pat a : Bytes} (h : p ∉ a) (rest : Bytes) : NoOcc (p :: pat) a rest := by
  induction a with
  | nil => exact .nil _ _
  | cons c a ih =>
    have : p ≠ c := fun e => h (by simp [e])
    exact .cons (by simp [List.isPrefixOf, this]) (ih (fun hm => h (List.mem_cons_of_mem _ hm)))

/-- The two texts differ somewhere within the shorter of them. -/
def clashes : Bytes → Bytes → Bool
  | p :: ps, c :: cs => p != c || clashes ps cs
  | _, _ => false

/-- The pattern clashes with every end of the text. -/
def clash (pat : Bytes) : Bytes → Bool
  | [] => true
  | c :: cs => clashes pat (c :: cs) && clash pat cs

theorem clashes_prefix : ∀ {pat a : Bytes} (_ : clashes pat a = true) (rest : Bytes), pat.isPrefixOf (a ++ rest) = false
  | [], _, h, _ => by simp [clashes] at h
  | _ :: _, [], h, _ => by simp [clashes] at h
  | p :: ps, c :: cs, h, rest => by
    simp only [clashes, Bool.or_eq_true, bne_iff_ne, ne_eq] at h
    by_cases hpc : p = c
    · simp [hpc, clashes_prefix (h.resolve_left (by simp [hpc])) rest]
    · simp [List.isPrefixOf, hpc]

theorem NoOcc.clash {pat a : Bytes} (h : Json.clash pat a = true) (rest : Bytes) : NoOcc pat a rest := by
  induction a with
  | nil => exact .nil _ _
  | cons c a ih =>
    simp only [Json.clash, Bool.and_eq_true] at h
    exact .cons (clashes_prefix h.1 rest) (ih h.2)

theorem NoOcc.first {pat a rest : Bytes} (h : NoOcc pat a (pat ++ rest)) : FirstSplit pat (a ++ pat ++ rest) a rest := by
  refine ⟨rfl, ?_⟩
  intro j hj
  rw [List.append_assoc]
  exact h j hj

theorem NoOcc.none {pat a : Bytes} (hp : pat ≠ []) (h : NoOcc pat a []) : indexOf pat a = -1 := by
  rcases indexOf_spec pat a with ⟨h1, _⟩ | ⟨i, _, h2, _⟩
  · exact h1
  · have := h2.le
    have : 0 < pat.length := List.length_pos_iff.2 hp
    exact absurd (by simpa using h2) (h i (by omega))

/-- A string in quotes, other than the key, is not the key in quotes. -/
theorem NoOcc.quoted {key s : Bytes} (hk : 34 ∉ key) (hs : 34 ∉ s) (hne : s ≠ key) (rest : Bytes) : NoOcc (34 :: (key ++ [34])) (34 :: s) (34 :: rest) := by
  refine .cons ?_ (.free hs _)
  rw [Bool.eq_false_iff]
  intro h
  rw [List.isPrefixOf_iff_prefix] at h
  obtain ⟨t, ht⟩ := h
  simp only [List.cons_append, List.append_assoc, List.nil_append, List.cons.injEq, true_and] at ht
  have e1 : (key ++ 34 :: t).takeWhile (fun c => c != 34) = key := takeWhile_append_stop (fun x hx => by simp only [bne_iff_ne, ne_eq]; rintro rfl; exact hk hx) (by decide)
  have e2 : (s ++ 34 :: rest).takeWhile (fun c => c != 34) = s := takeWhile_append_stop (fun x hx => by simp only [bne_iff_ne, ne_eq]; rintro rfl; exact hs hx) (by decide)
  rw [ht, e2] at e1
  exact hne e1

/-! ## The extractors, given the first occurrence of their pattern -/

theorem extractID_at {pre ws body s : Bytes} (h : FirstSplit (b! "\"id\"") s pre (ws ++ 34 :: body)) (hws : 34 ∉ ws) (hb : 64 ≤ body.length) : extractEventID s = .val (body.take 64) := by
  unfold extractEventID
  simp only [h.index]
  rw [if_neg (by omega), goSliceFrom_at h.1 (by simp)]
  simp only [Out.val_bind]
  rw [indexOf_singleton_eq hws]
  refine goSlice_at (a := pre ++ b! "\"id\"" ++ ws ++ [34]) (c := body.drop 64) (by rw [h.1]; simp) (by simp; omega) ?_
  simp only [List.length_take, List.length_append, List.length_cons, List.length_nil]
  omega

theorem extractPubKey_at {pre ws body s : Bytes} (h : FirstSplit (b! "\"pubkey\"") s pre (ws ++ 34 :: body)) (hws : 34 ∉ ws) (hb : 64 ≤ body.length) :
    extractEventPubKey s = .val (body.take 64) := by
  unfold extractEventPubKey
  simp only [h.index]
  rw [if_neg (by omega), goSliceFrom_at h.1 (by simp)]
  simp only [Out.val_bind]
  rw [indexOf_singleton_eq hws]
  refine goSlice_at (a := pre ++ b! "\"pubkey\"" ++ ws ++ [34]) (c := body.drop 64) (by rw [h.1]; simp) (by simp; omega) ?_
  simp only [List.length_take, List.length_append, List.length_cons, List.length_nil]
  omega

theorem extractDTag_at {pre ws v rest s : Bytes} (h : FirstSplit (b! "[\"d\"") s pre (ws ++ 34 :: (v ++ 34 :: rest))) (hws : 34 ∉ ws) (hv : 34 ∉ v) : extractDTag s = .val v := by
  unfold extractDTag
  simp only [h.index]
  rw [if_neg (by omega), goSliceFrom_at h.1 (by simp)]
  simp only [Out.val_bind]
  rw [indexOf_singleton_eq hws, goSliceFrom_at (a := pre ++ b! "[\"d\"" ++ ws ++ [34]) (b := v ++ 34 :: rest) (by rw [h.1]; simp) (by simp; omega)]
  simp only [Out.val_bind]
  rw [indexOf_singleton_eq hv, if_neg (by omega)]
  exact goSlice_at (a := pre ++ b! "[\"d\"" ++ ws ++ [34]) (c := 34 :: rest) (by rw [h.1]; simp) (by simp; omega) (by simp; omega)

theorem extractTimestamp_at {pre ws rest s : Bytes} {ts : Int} {c : UInt8} (h : FirstSplit (b! "\"created_at\"") s pre (ws ++ fmtInt ts ++ c :: rest)) (hws : ∀ x ∈ ws, ¬ (48 ≤ x ∧ x ≤ 57))
    (h0 : 0 ≤ ts) (h1 : ts < 2 ^ 63) (hc : c = 44 ∨ c = 125 ∨ c = 32) : extractTimestamp s = .val ts := by
  have hd : ∀ x ∈ fmtInt ts, 48 ≤ x ∧ x ≤ 57 := by
    unfold fmtInt
    rw [if_neg (by omega)]
    exact fmtNat_digits _
  obtain ⟨d, r, hf⟩ : ∃ d r, fmtInt ts = d :: r := by
    obtain ⟨d, r, hf, _⟩ := fmtInt_shape ts
    exact ⟨d, r, hf⟩
  have hpost : ws ++ fmtInt ts ++ c :: rest = ws ++ d :: (r ++ c :: rest) := by rw [hf]; simp
  unfold extractTimestamp
  simp only [h.index]
  rw [if_neg (by omega), goSliceFrom_at h.1 (by simp)]
  simp only [Out.val_bind]
  have hi : indexAny (fun c => 48 ≤ c && c ≤ 57) (ws ++ fmtInt ts ++ c :: rest) = ws.length := by
    rw [hpost]
    refine indexAny_eq (fun x hx => ?_) ?_
    · have := hws x hx
      simpa using this
    · have := hd d (by simp [hf])
      simpa using this
  rw [hi, if_neg (by omega), goSliceFrom_at (a := pre ++ b! "\"created_at\"" ++ ws) (b := fmtInt ts ++ c :: rest) (by rw [h.1]; simp) (by simp; omega)]
  simp only [Out.val_bind]
  have hj : indexAny (fun c => c = 44 || c = 125 || c = 32) (fmtInt ts ++ c :: rest) = (fmtInt ts).length := by
    refine indexAny_eq (fun x hx => ?_) (by rcases hc with rfl | rfl | rfl <;> decide)
    have key : ∀ x : UInt8, 48 ≤ x ∧ x ≤ 57 → (decide (x = 44) || decide (x = 125) || decide (x = 32)) = false := by decide +kernel
    exact key x (hd x hx)
  rw [hj, if_neg (by omega), goSlice_at (a := pre ++ b! "\"created_at\"" ++ ws) (b := fmtInt ts) (c := c :: rest) (by rw [h.1]; simp) (by simp; omega) (by simp; omega)]
  simp only [Out.val_bind, parseInt64_fmtInt (show -(2 ^ 63) ≤ ts by omega) h1]
  rfl

/-! ## The layout the encoder writes -/

/-- A string of lower case hex digits. -/
def Hex64 (s : Bytes) : Prop := s.length = 64 ∧ ∀ c ∈ s, IsLowerHexByte c

theorem wBody_plain : ∀ {s : Bytes}, (∀ c ∈ s, 32 ≤ c ∧ c < 127 ∧ c ≠ 34 ∧ c ≠ 92) → ∀ n, s.length ≤ n → wBody n s = s
  | [], _, n, _ => by cases n <;> rfl
  | c :: s, h, 0, hn => by simp at hn
  | c :: s, h, n + 1, hn => by
    obtain ⟨h1, h2, h3, h4⟩ := h c (by simp)
    have key : ∀ c : UInt8, 32 ≤ c ∧ c < 127 ∧ c ≠ 34 ∧ c ≠ 92 → c < 0x80 ∧ wByte c = [c] := by decide +kernel
    obtain ⟨k1, k2⟩ := key c ⟨h1, h2, h3, h4⟩
    rw [wBody, if_pos k1, k2, wBody_plain (fun x hx => h x (List.mem_cons_of_mem _ hx)) n (by simpa using hn)]
    rfl

theorem hex_plain {s : Bytes} (h : ∀ c ∈ s, IsLowerHexByte c) : ∀ c ∈ s, 32 ≤ c ∧ c < 127 ∧ c ≠ 34 ∧ c ≠ 92 := by
  have key : ∀ c : UInt8, IsLowerHexByte c → 32 ≤ c ∧ c < 127 ∧ c ≠ 34 ∧ c ≠ 92 := by unfold IsLowerHexByte; decide +kernel
  exact fun c hc => key c (h c hc)

theorem Hex64.written {s key : Bytes} (h : Hex64 s) : wOpt key s = [44, 34] ++ key ++ [34, 58] ++ rawQuoted s := by
  unfold wOpt
  rw [if_neg (by intro e; have := h.1; simp [e] at this), wString, wBody_plain (hex_plain h.2) _ (Nat.le_refl _)]
  rfl

theorem Hex64.no_quote {s : Bytes} (h : Hex64 s) : 34 ∉ s := fun hm => (hex_plain h.2 34 hm).2.2.1 rfl

/-- What follows the timestamp. -/
def tailOf (e : Event) : Bytes := b! ",\"tags\":" ++ wTags e.tags ++ b! ",\"content\":" ++ wString e.content ++ wOpt (b! "sig") e.sig ++ b! "}]"

/-- The EVENT message as this package writes it, and as relays commonly do. -/
theorem message_eq {sub : Bytes} {e : Event} (hi : Hex64 e.id) (hp : Hex64 e.pubkey) : marshal (.event (some sub) e) = .val (b! "[\"EVENT\",\"" ++ sub ++ b! "\",{\"kind\":" ++ fmtInt e.kind ++ b! ",\"id\":\"" ++ e.id ++
    b! "\",\"pubkey\":\"" ++ e.pubkey ++ b! "\",\"created_at\":" ++ fmtInt e.createdAt ++ tailOf e) := by
  simp only [marshal, encodeEvent, hi.written, hp.written, rawQuoted, tailOf, List.append_assoc, List.cons_append, List.nil_append]

theorem fmtInt_free (i : Int) {c : UInt8} (h : ¬ ((48 ≤ c ∧ c ≤ 57) ∨ c = 45)) : c ∉ fmtInt i := by
  obtain ⟨d, s, hf, hd, hs⟩ := fmtInt_shape i
  rw [hf]
  intro hm
  rcases List.mem_cons.1 hm with rfl | hm
  · exact h hd
  · exact h (.inl (hs c hm))

/-- The parts of a message before the timestamp, from the subscription id on, contain a key in quotes only where the key of a member is written. -/
theorem noOcc_sub {key sub : Bytes} {k : Int} (hk : 34 ∉ key) (hs : 34 ∉ sub) (hne : sub ≠ key) (h1 : clash (34 :: (key ++ [34])) (b! "[\"EVENT\",") = true) (h2 : clash (34 :: (key ++ [34])) (b! "\",{\"kind\":") = true) (rest : Bytes) :
    NoOcc (34 :: (key ++ [34])) (b! "[\"EVENT\",\"" ++ sub ++ b! "\",{\"kind\":" ++ fmtInt k ++ [44]) rest := by
  have a1 : b! "[\"EVENT\",\"" ++ sub ++ b! "\",{\"kind\":" ++ fmtInt k ++ [44] = b! "[\"EVENT\"," ++ ((34 :: sub) ++ (b! "\",{\"kind\":" ++ (fmtInt k ++ [44]))) := by
    simp only [List.append_assoc, List.cons_append, List.nil_append]
  rw [a1]
  refine .append (.clash h1 _) (.append ?_ (.append (.clash h2 _) (.append (.free (fmtInt_free k (by decide)) _) (.free (by decide) _))))
  exact .quoted hk hs hne _

theorem event_message (valid : Bytes → Bool) (readCount : Bytes → Option (Option Int × Bytes)) {sub : Bytes} {e : Event} (hs : PlainText sub) (hk : InInt64 e.kind) (hc : InInt64 e.createdAt) :
    ∃ msg, marshal (.event (some sub) e) = .val msg ∧ parseMessage valid readCount msg = .env (.event (some sub) (cleanEvent e)) := by
  obtain ⟨g1, g2⟩ := gtext_event hk hc
  refine ⟨_, rfl, ?_⟩
  have := isMessage_of (label := b! "EVENT") (.next (gtext_raw hs) (.next g1 .done))
  refine C23_any_layout valid readCount ?_ (.eventSub (v := ⟨rawQuoted sub, sub, false⟩) ⟨rfl, rfl⟩ g2)
  simpa using this

/-- C18: the id, the public key and the timestamp found in an EVENT message as the encoder lays it out are those of the event, and full parsing of the same message yields that event. The subscription id is one this package makes
(a number, a colon and a label). Missing for the full property: other layouts and negative timestamps, for which it is false (below), and events whose id or public key is not 64 hex digits, for which the reader may crash (C17). -/
theorem C18_agrees_partial (valid : Bytes → Bool) (readCount : Bytes → Option (Option Int × Bytes)) {n : Int} {label : Bytes} {e : Event} (hl : PlainText label) (hi : Hex64 e.id) (hp : Hex64 e.pubkey)
    (hk : InInt64 e.kind) (hc : InInt64 e.createdAt) (h0 : 0 ≤ e.createdAt) (hu : EventUtf8 e) :
    ∃ msg, marshal (.event (some (makeSubID n label)) e) = .val msg ∧ parseMessage valid readCount msg = .env (.event (some (makeSubID n label)) e) ∧
      extractSubID msg = .val (makeSubID n label) ∧ readerEventID msg = .val e.id ∧ extractEventPubKey msg = .val e.pubkey ∧ extractTimestamp msg = .val e.createdAt := by
  have hsub : PlainText (makeSubID n label) := by
    intro c hc
    unfold makeSubID at hc
    rcases List.mem_append.1 hc with hc | hc
    · rcases List.mem_append.1 hc with hc | hc
      · have key : ∀ c : UInt8, (48 ≤ c ∧ c ≤ 57) ∨ c = 45 → 32 ≤ c ∧ c ≠ 34 ∧ c ≠ 92 := by decide +kernel
        refine key c (Classical.byContradiction fun hn => fmtInt_free n hn hc)
      · simp only [List.mem_singleton] at hc; subst hc; decide
    · exact hl c hc
  have hq : 34 ∉ makeSubID n label := fun hm => (hsub 34 hm).2.1 rfl
  have hne : ∀ key : Bytes, (58 : UInt8) ∉ key → makeSubID n label ≠ key := fun key hk he => hk (he ▸ by simp [makeSubID])
  refine ⟨_, message_eq hi hp, ?_, ?_, ?_, ?_, ?_⟩
  · obtain ⟨msg, h1, h2⟩ := event_message valid readCount hsub hk hc
    rw [cleanEvent_utf8 hu] at h2
    rw [← Out.val.inj (h1.symm.trans (message_eq hi hp))]
    exact h2
  · have := extractSubID_event (makeSubID n label) (b! ",{\"kind\":" ++ fmtInt e.kind ++ b! ",\"id\":\"" ++ e.id ++
      b! "\",\"pubkey\":\"" ++ e.pubkey ++ b! "\",\"created_at\":" ++ fmtInt e.createdAt ++ tailOf e) hq
    exact (congrArg extractSubID (by simp only [List.append_assoc, List.cons_append, List.nil_append])).trans this
  · have hf : NoOcc (b! "\"id\"") (34 :: (b! ",{\"kind\":" ++ fmtInt e.kind ++ [44])) (b! "\"id\"" ++ ([58] ++ 34 :: (e.id ++
        (b! "\",\"pubkey\":\"" ++ e.pubkey ++ b! "\",\"created_at\":" ++ fmtInt e.createdAt ++ tailOf e)))) := by
      have a1 : (34 :: (b! ",{\"kind\":" ++ fmtInt e.kind ++ [44]) : Bytes) = b! "\",{\"kind\":" ++ (fmtInt e.kind ++ [44]) := by simp
      rw [a1]
      exact .append (.clash (by decide +kernel) _) (.append (.free (fmtInt_free _ (by decide)) _) (.free (by decide) _))
    have := C17_preparse_ok_partial (makeSubID n label) (b! ",{\"kind\":" ++ fmtInt e.kind ++ [44]) [58]
      (e.id ++ (b! "\",\"pubkey\":\"" ++ e.pubkey ++ b! "\",\"created_at\":" ++ fmtInt e.createdAt ++ tailOf e)) hq hf.first (by decide) (by rw [List.length_append, hi.1]; omega)
    rw [show (64 : Nat) = e.id.length from hi.1.symm, List.take_left] at this
    exact (congrArg readerEventID (by simp only [List.append_assoc, List.cons_append, List.nil_append])).trans this
  · have hf : NoOcc (b! "\"pubkey\"") (b! "[\"EVENT\",\"" ++ makeSubID n label ++ b! "\",{\"kind\":" ++ fmtInt e.kind ++ [44] ++ (b! "\"id\":" ++ ((34 :: e.id) ++ b! "\",")))
        (b! "\"pubkey\"" ++ ([58] ++ 34 :: (e.pubkey ++ (b! "\",\"created_at\":" ++ fmtInt e.createdAt ++ tailOf e)))) := by
      refine .append (noOcc_sub (key := b! "pubkey") (by decide) hq (hne _ (by decide)) (by decide +kernel) (by decide +kernel) _) (.append (.clash (by decide +kernel) _) (.append ?_ (.clash (by decide +kernel) _)))
      refine NoOcc.quoted (key := b! "pubkey") (by decide) hi.no_quote (fun he => ?_) _
      have := hi.1
      rw [he] at this
      revert this; decide
    have := extractPubKey_at hf.first (by decide) (by rw [List.length_append, hp.1]; omega)
    rw [show (64 : Nat) = e.pubkey.length from hp.1.symm, List.take_left] at this
    exact (congrArg extractEventPubKey (by simp only [List.append_assoc, List.cons_append, List.nil_append])).trans this
  · have hf : NoOcc (b! "\"created_at\"") (b! "[\"EVENT\",\"" ++ makeSubID n label ++ b! "\",{\"kind\":" ++ fmtInt e.kind ++ [44] ++ (b! "\"id\":" ++ ((34 :: e.id) ++ (b! "\",\"pubkey\":" ++ ((34 :: e.pubkey) ++ b! "\",")))))
        (b! "\"created_at\"" ++ ([58] ++ fmtInt e.createdAt ++ tailOf e)) := by
      have long : ∀ {s : Bytes}, Hex64 s → s ≠ b! "created_at" := by
        intro s hs he
        have := hs.1
        rw [he] at this
        revert this; decide
      refine .append (noOcc_sub (key := b! "created_at") (by decide) hq (hne _ (by decide)) (by decide +kernel) (by decide +kernel) _) (.append (.clash (by decide +kernel) _) (.append ?_ (.append (.clash (by decide +kernel) _) (.append ?_ (.clash (by decide +kernel) _)))))
      · exact NoOcc.quoted (key := b! "created_at") (by decide) hi.no_quote (long hi) _
      · exact NoOcc.quoted (key := b! "created_at") (by decide) hp.no_quote (long hp) _
    have ht : [58] ++ fmtInt e.createdAt ++ tailOf e = [58] ++ fmtInt e.createdAt ++ 44 :: (tailOf e).tail := by simp [tailOf]
    rw [ht] at hf
    have := extractTimestamp_at hf.first (by decide +kernel) h0 hc.2 (.inl rfl)
    rw [← ht] at this
    exact (congrArg extractTimestamp (by simp only [List.append_assoc, List.cons_append, List.nil_append])).trans this

/-! ## The `d` tag -/

/-- The body of a string does not contain the beginning of a `d` tag, if what follows the string does not begin with a `d`. -/
theorem noOcc_body {b v : Bytes} (h : Esc b v) {c : UInt8} (hc : c ≠ 100) (rest : Bytes) : NoOcc (b! "[\"d\"") b (34 :: c :: rest) := by
  induction h with
  | nil => exact .nil _ _
  | @raw x b v h32 h34 h92 hb ih =>
    refine .cons ?_ ih
    cases hb with
    | nil => simp [List.isPrefixOf, Ne.symm hc]
    | raw _ h34' => simp [List.isPrefixOf, Ne.symm h34']
    | short => simp [List.isPrefixOf]
    | u => simp [List.isPrefixOf]
  | @short e x b v he _ ih =>
    have key : ∀ e c : UInt8, shortEscape e = some c → e ≠ 91 := by
      intro e c h
      rintro rfl
      simp [shortEscape] at h
    exact .cons (by simp [List.isPrefixOf]) (.cons (by simp [List.isPrefixOf, Ne.symm (key e x he)]) ih)
  | @u h1 h2 h3 h4 r b v hr _ _ ih =>
    have hn : ∀ (c : UInt8) (n : Nat), hexNibble c = some n → c ≠ 91 := by
      intro c n h
      rintro rfl
      revert h
      unfold hexNibble
      simp
    have : h1 ≠ 91 ∧ h2 ≠ 91 ∧ h3 ≠ 91 ∧ h4 ≠ 91 := by
      unfold u4 at hr
      split at hr
      · next a b c d ha hb hc hd => exact ⟨hn _ _ ha, hn _ _ hb, hn _ _ hc, hn _ _ hd⟩
      · cases hr
    obtain ⟨a1, a2, a3, a4⟩ := this
    exact .cons (by simp [List.isPrefixOf]) (.cons (by simp [List.isPrefixOf]) (.cons (by simp [List.isPrefixOf, Ne.symm a1]) (.cons (by simp [List.isPrefixOf, Ne.symm a2]) (.cons (by simp [List.isPrefixOf, Ne.symm a3])
      (.cons (by simp [List.isPrefixOf, Ne.symm a4]) ih)))))

theorem noOcc_string (s : Bytes) {c : UInt8} (hc : c ≠ 100) (rest : Bytes) : NoOcc (b! "[\"d\"") (wString s) (c :: rest) := by
  have e : wString s = [34] ++ (wBody s.length s ++ [34]) := by simp [wString]
  rw [e]
  exact .append (.free (by decide) _) (.append (noOcc_body (wString_esc s) hc rest) (.free (by decide) _))

theorem noOcc_more (l : List Bytes) {c : UInt8} (hc : c ≠ 100) (rest : Bytes) : NoOcc (b! "[\"d\"") ((l.map wString).flatMap (fun y => 44 :: y)) (c :: rest) := by
  induction l with
  | nil => exact .nil _ _
  | cons s l ih =>
    have e : (((s :: l).map wString).flatMap (fun y => 44 :: y)) = [44] ++ (wString s ++ (l.map wString).flatMap (fun y => 44 :: y)) := by simp
    rw [e]
    refine .append (.free (by decide) _) (.append ?_ ih)
    cases l with
    | nil => exact noOcc_string s hc rest
    | cons s' l => simpa using noOcc_string s (c := 44) (by decide) _

/-- A tag that is not named `d` does not look like one. -/
theorem noOcc_tag {t : Tag} (hu : ∀ s ∈ t, Utf8 s) (ht : t.head? ≠ some (b! "d")) (rest : Bytes) : NoOcc (b! "[\"d\"") (wStrings t) rest := by
  cases t with
  | nil => exact .clash (by decide +kernel) _
  | cons n l =>
    have e : wStrings (n :: l) = 91 :: (wString n ++ ((l.map wString).flatMap (fun y => 44 :: y) ++ [93])) := by simp [wStrings, commas]
    rw [e]
    refine .cons ?_ (.append ?_ (.append (noOcc_more l (by decide) _) (.free (by decide) _)))
    · have hb := wBody_utf8 (hu n (by simp))
      have hn : wBody n.length n ≠ [100] := by
        intro he
        rw [he] at hb
        have := esc_no_backslash hb (by decide)
        exact ht (by simp [← this])
      have hw : wString n = 34 :: (wBody n.length n ++ [34]) := by simp [wString]
      rw [hw]
      cases hbody : wBody n.length n with
      | nil => simp [List.isPrefixOf]
      | cons x b =>
        rw [hbody] at hb hn
        by_cases hx : x = 100
        · subst hx
          cases hb with
          | raw _ _ _ hb' =>
            cases hb' with
            | nil => exact absurd rfl hn
            | raw _ h34 => simp [List.isPrefixOf, Ne.symm h34]
            | short => simp [List.isPrefixOf]
            | u => simp [List.isPrefixOf]
        · simp [List.isPrefixOf, Ne.symm hx]
    · cases l with
      | nil => exact noOcc_string n (c := 93) (by decide) _
      | cons s' l => simpa using noOcc_string n (c := 44) (by decide) _

theorem noOcc_tags (l : Tags) (hu : ∀ t ∈ l, ∀ s ∈ t, Utf8 s) (hl : ∀ t ∈ l, t.head? ≠ some (b! "d")) (rest : Bytes) : NoOcc (b! "[\"d\"") (l.flatMap (fun t => wStrings t ++ [44])) rest := by
  induction l with
  | nil => exact .nil _ _
  | cons t l ih =>
    rw [List.flatMap_cons]
    exact .append (.append (noOcc_tag (hu t (by simp)) (hl t (by simp)) _) (.free (by decide) _)) (ih (fun t ht => hu t (List.mem_cons_of_mem _ ht)) (fun t ht => hl t (List.mem_cons_of_mem _ ht)))

theorem commas_split (a : List Bytes) (b : Bytes) (c : List Bytes) : commas (a ++ b :: c) = a.flatMap (fun x => x ++ [44]) ++ commas (b :: c) := by
  induction a with
  | nil => rfl
  | cons x a ih =>
    cases a with
    | nil => simp [commas]
    | cons y a => 
      simp only [commas, List.cons_append, List.flatMap_cons, List.append_assoc, List.append_cancel_left_eq] at ih ⊢
      simp only [ih, List.nil_append]

/-- The first tag named `d` comes after others, or there is none. -/
theorem dTag_split (l : Tags) (h1 : [b! "d"] ∉ l) : (∃ pre v more post, l = pre ++ (b! "d" :: v :: more) :: post ∧ (∀ t ∈ pre, t.head? ≠ some (b! "d")) ∧ l.getD = v) ∨
    ((∀ t ∈ l, t.head? ≠ some (b! "d")) ∧ l.getD = []) := by
  induction l with
  | nil => exact .inr ⟨by simp, rfl⟩
  | cons t l ih =>
    have ih := ih (fun hm => h1 (List.mem_cons_of_mem _ hm))
    have skip : t.head? ≠ some (b! "d") → Tags.getD (t :: l) = Tags.getD l := by
      intro h
      match t, h with
      | [], _ => rfl
      | [k], _ => rfl
      | k :: v :: r, h =>
        have : k ≠ b! "d" := fun e => h (by simp [e])
        simp [Tags.getD, this]
    by_cases ht : t.head? = some (b! "d")
    · match t, ht with
      | [k], ht =>
        simp only [List.head?_cons, Option.some.injEq] at ht
        exact absurd (by simp [ht]) h1
      | k :: v :: r, ht =>
        simp only [List.head?_cons, Option.some.injEq] at ht
        subst ht
        exact .inl ⟨[], v, r, l, rfl, by simp, by simp [Tags.getD]⟩
    · rcases ih with ⟨pre, v, more, post, rfl, h2, h3⟩ | ⟨h2, h3⟩
      · refine .inl ⟨t :: pre, v, more, post, rfl, ?_, by rw [skip ht, h3]⟩
        intro x hx
        rcases List.mem_cons.1 hx with rfl | hx
        · exact ht
        · exact h2 x hx
      · refine .inr ⟨?_, by rw [skip ht, h3]⟩
        intro x hx
        rcases List.mem_cons.1 hx with rfl | hx
        · exact ht
        · exact h2 x hx

/-- C18: the value of the `d` tag found in an EVENT message as the encoder lays it out is the one of the event, if no tag consists of the name `d` alone and the value is written without escapes.
Missing for the full property: the other cases, for which it is false (below). -/
theorem C18_dTag_partial {n : Int} {label : Bytes} {e : Event} (hl : PlainText label) (hi : Hex64 e.id) (hp : Hex64 e.pubkey) (hu : EventUtf8 e) (h1 : [b! "d"] ∉ e.tags)
    (hv : PlainText e.tags.getD) (hw : wString e.tags.getD = rawQuoted e.tags.getD) :
    ∃ msg, marshal (.event (some (makeSubID n label)) e) = .val msg ∧ extractDTag msg = .val e.tags.getD := by
  refine ⟨_, message_eq hi hp, ?_⟩
  obtain ⟨_, _, huc, hus, hut⟩ := hu
  have hexfree : ∀ {s : Bytes}, Hex64 s → 91 ∉ s := by
    intro s hs hm
    have := hs.2 91 hm
    revert this
    unfold IsLowerHexByte
    decide
  have hsub : Esc (makeSubID n label) (makeSubID n label) := by
    refine Esc.plain ?_
    intro c hc
    unfold makeSubID at hc
    rcases List.mem_append.1 hc with hc | hc
    · rcases List.mem_append.1 hc with hc | hc
      · have key : ∀ c : UInt8, (48 ≤ c ∧ c ≤ 57) ∨ c = 45 → 32 ≤ c ∧ c ≠ 34 ∧ c ≠ 92 := by decide +kernel
        refine key c (Classical.byContradiction fun hn => fmtInt_free n hn hc)
      · simp only [List.mem_singleton] at hc; subst hc; decide
    · exact hl c hc
  -- the message up to the tags
  have hhead : ∀ rest, NoOcc (b! "[\"d\"") (b! "[\"EVENT\",\"" ++ (makeSubID n label ++ (b! "\",{\"kind\":" ++ (fmtInt e.kind ++ (b! ",\"id\":\"" ++ (e.id ++
      (b! "\",\"pubkey\":\"" ++ (e.pubkey ++ (b! "\",\"created_at\":" ++ (fmtInt e.createdAt ++ b! ",\"tags\":")))))))))) rest := by
    intro rest
    refine .append (.clash (by decide +kernel) _) (.append (noOcc_body hsub (c := 44) (by decide) _) (.append (.free (by decide +kernel) _) (.append (.free (fmtInt_free _ (by decide)) _) (.append (.free (by decide +kernel) _)
      (.append (.free (hexfree hi) _) (.append (.free (by decide +kernel) _) (.append (.free (hexfree hp) _) (.append (.free (by decide +kernel) _) (.append (.free (fmtInt_free _ (by decide)) _) (.free (by decide +kernel) _))))))))))
  rcases dTag_split e.tags h1 with ⟨pre, v, more, post, ht, hpre, hd⟩ | ⟨hno, hd⟩
  · rw [hd] at hv hw ⊢
    have hvq : 34 ∉ v := fun hm => (hv 34 hm).2.1 rfl
    have htags : ∃ rest, wTags e.tags = [91] ++ (pre.flatMap (fun t => wStrings t ++ [44]) ++ (b! "[\"d\"" ++ ([44] ++ 34 :: (v ++ 34 :: rest)))) := by
      have hdw : wString (b! "d") = b! "\"d\"" := by decide +kernel
      refine ⟨((more.map wString).flatMap (fun y => 44 :: y)) ++ (93 :: ((post.map wStrings).flatMap (fun y => 44 :: y) ++ [93])), ?_⟩
      rw [wTags, ht, List.map_append, List.map_cons, commas_split]
      simp [commas, wStrings, hdw, hw, rawQuoted, List.flatMap_map]
    obtain ⟨rest, htags⟩ := htags
    have hut' : ∀ t ∈ pre, ∀ s ∈ t, Utf8 s := fun t hm => hut t (by rw [ht]; exact List.mem_append_left _ hm)
    have hn : ∀ r, NoOcc (b! "[\"d\"") ([91] ++ pre.flatMap (fun t => wStrings t ++ [44])) (b! "[\"d\"" ++ r) := by
      intro r
      refine .append (.cons ?_ (.nil _ _)) (noOcc_tags pre hut' hpre _)
      cases pre with
      | nil => simp [List.isPrefixOf]
      | cons t pre => simp [List.isPrefixOf, wStrings]
    have hf := (NoOcc.append (hhead _) (hn ([44] ++ 34 :: (v ++ 34 :: (rest ++ (b! ",\"content\":" ++ wString e.content ++ wOpt (b! "sig") e.sig ++ b! "}]")))))).first
    have := extractDTag_at hf (by decide) hvq
    refine (congrArg extractDTag ?_).trans this
    rw [tailOf, htags]
    simp only [List.append_assoc, List.cons_append, List.nil_append]
  · rw [hd]
    have hn : NoOcc (b! "[\"d\"") ([91] ++ (commas (e.tags.map wStrings) ++ (b! "],\"content\":" ++ (wString e.content ++ (wOpt (b! "sig") e.sig ++ b! "}]"))))) [] := by
      have hend : ∀ r, NoOcc (b! "[\"d\"") (b! "],\"content\":" ++ (wString e.content ++ (wOpt (b! "sig") e.sig ++ b! "}]"))) r := by
        intro r
        refine .append (.free (by decide +kernel) _) (.append ?_ (.append ?_ (.free (by decide +kernel) _)))
        · by_cases hs : e.sig = []
          · simpa [wOpt, hs] using noOcc_string e.content (c := 125) (by decide) (93 :: r)
          · simpa [wOpt, hs] using noOcc_string e.content (c := 44) (by decide) _
        · by_cases hs : e.sig = []
          · simp only [wOpt, if_pos hs]; exact .nil _ _
          · simp only [wOpt, if_neg hs]
            exact .append (.free (by decide +kernel) _) (noOcc_string e.sig (c := 125) (by decide) _)
      rcases List.eq_nil_or_concat e.tags with h0 | ⟨init, last, h0⟩
      · rw [h0]
        exact .append (.cons (by simp [List.isPrefixOf, commas]) (.nil _ _)) (hend _)
      · rw [List.concat_eq_append] at h0
        rw [h0, List.map_append, List.map_singleton, commas_split]
        refine .append (.cons ?_ (.nil _ _)) (.append (.append ?_ ?_) (hend _))
        · cases init with
          | nil => simp [List.isPrefixOf, wStrings, commas]
          | cons t pre => simp [List.isPrefixOf, wStrings]
        · rw [List.flatMap_map]
          exact noOcc_tags init (fun t hm => hut t (by simp [h0, hm])) (fun t hm => hno t (by simp [h0, hm])) _
        · have : commas [wStrings last] = wStrings last := by simp [commas]
          rw [this]
          exact noOcc_tag (hut last (by simp [h0])) (hno last (by simp [h0])) _
    have := (NoOcc.append (hhead _) hn).none (by decide)
    unfold extractDTag
    have e1 : b! "[\"EVENT\",\"" ++ makeSubID n label ++ b! "\",{\"kind\":" ++ fmtInt e.kind ++ b! ",\"id\":\"" ++ e.id ++ b! "\",\"pubkey\":\"" ++ e.pubkey ++ b! "\",\"created_at\":" ++ fmtInt e.createdAt ++ tailOf e =
        (b! "[\"EVENT\",\"" ++ (makeSubID n label ++ (b! "\",{\"kind\":" ++ (fmtInt e.kind ++ (b! ",\"id\":\"" ++ (e.id ++
      (b! "\",\"pubkey\":\"" ++ (e.pubkey ++ (b! "\",\"created_at\":" ++ (fmtInt e.createdAt ++ b! ",\"tags\":")))))))))) ++
        ([91] ++ (commas (e.tags.map wStrings) ++ (b! "],\"content\":" ++ (wString e.content ++ (wOpt (b! "sig") e.sig ++ b! "}]"))))) := by
      simp only [tailOf, wTags, List.append_assoc, List.cons_append, List.nil_append]
    rw [e1, this]
    rfl

/-! ## Where they disagree -/

/-- A value of the examples. -/
def hexA : Bytes := List.replicate 64 97
/-- A value of the examples. -/
def hexB : Bytes := List.replicate 64 98

/-- C18 is false for layouts a relay may choose: with the tags before the id, the word `id` as the value of a tag makes the reader take the next string for the id of the event, so that an event not seen before is dropped
as a duplicate of another one; and with white space after the bracket the `d` tag is not found. Both messages are parsed. -/
theorem C18_relay_layout (valid : Bytes → Bool) (readCount : Bytes → Option (Option Int × Bytes)) :
    let msg := b! "[\"EVENT\",\"1:\",{\"tags\":[[\"t\",\"id\",\"" ++ hexB ++ b! "\"],[ \"d\",\"x\"]],\"id\":\"" ++ hexA ++ b! "\",\"pubkey\":\"" ++ hexA ++ b! "\",\"kind\":1,\"created_at\":5,\"content\":\"\"}]"
    ∃ e, parseMessage valid readCount msg = .env (.event (some (b! "1:")) e) ∧ e.id = hexA ∧ readerEventID msg = .val hexB ∧ e.tags.getD = b! "x" ∧ extractDTag msg = .val [] := by
  refine ⟨⟨hexA, hexA, 5, 1, [[b! "t", b! "id", hexB], [b! "d", b! "x"]], [], []⟩, ?_, rfl, by decide +kernel, by decide +kernel, by decide +kernel⟩
  have h : (fromArray valid readCount (b! "EVENT") (gArray (b! "[\"EVENT\",\"1:\",{\"tags\":[[\"t\",\"id\",\"" ++ hexB ++ b! "\"],[ \"d\",\"x\"]],\"id\":\"" ++ hexA ++ b! "\",\"pubkey\":\"" ++ hexA ++
      b! "\",\"kind\":1,\"created_at\":5,\"content\":\"\"}]"))) = .env (.event (some (b! "1:")) ⟨hexA, hexA, 5, 1, [[b! "t", b! "id", hexB], [b! "d", b! "x"]], [], []⟩) := by
    simp only [fromArray, if_true]
    decide +kernel
  have hl : labelOf (b! "[\"EVENT\",\"1:\",{\"tags\":[[\"t\",\"id\",\"" ++ hexB ++ b! "\"],[ \"d\",\"x\"]],\"id\":\"" ++ hexA ++ b! "\",\"pubkey\":\"" ++ hexA ++
      b! "\",\"kind\":1,\"created_at\":5,\"content\":\"\"}]") = some (b! "EVENT") := by decide +kernel
  simp only [parseMessage, hl, h]

/-- C18 is false even for the layout of this package: a `d` tag without a value is taken to have the next string as its value, an escaped value is cut short, and a timestamp before 1970 loses its sign. -/
theorem C18_own_layout :
    (∃ msg, marshal (.event (some (b! "1:")) ⟨hexA, hexA, 5, 30000, [[b! "d"]], b! "hi", []⟩) = .val msg ∧ Tags.getD [[b! "d"]] = [] ∧ extractDTag msg = .val (b! "content")) ∧
    (∃ msg, marshal (.event (some (b! "1:")) ⟨hexA, hexA, 5, 30000, [[b! "d", b! "a\"b"]], [], []⟩) = .val msg ∧ Tags.getD [[b! "d", b! "a\"b"]] = b! "a\"b" ∧ extractDTag msg = .val (b! "a\\")) ∧
    (∃ msg, marshal (.event (some (b! "1:")) ⟨hexA, hexA, -5, 30000, [], [], []⟩) = .val msg ∧ extractTimestamp msg = .val 5) := by
  refine ⟨⟨_, rfl, rfl, by decide +kernel⟩, ⟨_, rfl, rfl, by decide +kernel⟩, ⟨_, rfl, by decide +kernel⟩⟩

/-- The `d` values made of printable ASCII characters without quotes and backslashes are written without escapes. -/
theorem written_plainly {v : Bytes} (h : ∀ c ∈ v, 32 ≤ c ∧ c < 127 ∧ c ≠ 34 ∧ c ≠ 92) : PlainText v ∧ wString v = rawQuoted v :=
  ⟨fun c hc => ⟨(h c hc).1, (h c hc).2.2.1, (h c hc).2.2.2⟩, by rw [wString, wBody_plain h _ (Nat.le_refl _)]; rfl⟩

/-- An event with look-alikes in its tags and content that meets the hypotheses of `C18_agrees_partial` and `C18_dTag_partial`. -/
example : ∃ e : Event, Hex64 e.id ∧ Hex64 e.pubkey ∧ EventUtf8 e ∧ [b! "d"] ∉ e.tags ∧ PlainText e.tags.getD ∧ wString e.tags.getD = rawQuoted e.tags.getD ∧ e.tags.getD = b! "my-list" ∧
    e.tags = [[b! "x", b! "[\"d\"", b! "id"], [], [b! "d", b! "my-list"]] ∧ e.content = b! "\"id\":\"" := by
  refine ⟨⟨hexA, hexB, 1700000000, 30000, [[b! "x", b! "[\"d\"", b! "id"], [], [b! "d", b! "my-list"]], b! "\"id\":\"", []⟩, ⟨by decide +kernel, ?_⟩, ⟨by decide +kernel, ?_⟩, ⟨?_, ?_, ?_, ?_, ?_⟩, by decide +kernel, by decide +kernel, by decide +kernel, rfl, rfl, rfl⟩
  · unfold IsLowerHexByte hexA; decide +kernel
  · unfold IsLowerHexByte hexB; decide +kernel
  · exact .ascii (by unfold hexA; decide +kernel)
  · exact .ascii (by unfold hexB; decide +kernel)
  · exact .ascii (by decide +kernel)
  · exact .nil
  · have : ∀ t ∈ [[b! "x", b! "[\"d\"", b! "id"], [], [b! "d", b! "my-list"]], ∀ s ∈ t, ∀ c ∈ s, c < 0x80 := by decide +kernel
    exact fun t ht s hs => .ascii (this t ht s hs)

end GoNostr.Json
