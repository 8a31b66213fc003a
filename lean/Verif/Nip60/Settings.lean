import Verif.Nip60.Load
/-!
# C136: changing the wallet's mints and key (nip60/wallet.go:254-395)

`AddMint`, `RemoveMint` and `SetPrivateKey` change the wallet in memory, then publish a kind 17375 event with all its settings. `NormalizeHTTPURL`, the mints' answers, the check for
colliding keysets and the keyer are parameters. Encryption and the JSON of the hidden tags are taken to be undone by the reader, as in `Load.lean`.
-/

set_option autoImplicit false

namespace GoNostr.Nip60.Settings

open GoNostr.Nip60

/-- What is outside: `NormalizeHTTPURL`; `GetAllKeysets`, the ids; `CheckCollidingKeysets` of one id with the list; whether the keyer encrypts and signs; the time;
`PrivKeyFromBytes` followed by `Serialize`. -/
structure Env where
  norm : Bytes → Option Bytes
  keysets : Bytes → Option (List Bytes)
  collides : List Bytes → Bytes → Bool
  keyer : Bool
  now : Int
  reduce : Bytes → Bytes

/-- The settings in memory. -/
structure Wallet where
  canPublish : Bool
  mints : List Bytes
  key : Option Bytes
  deriving DecidableEq, Repr

/-- `toEvent` (wallet.go:361-395): the key first, then the mints. -/
def toEvent (env : Env) (w : Wallet) : Option MetaEvent :=
  if env.keyer then
    some ⟨env.now, true, some ((match w.key with | some k => [[b! "privkey", hexEnc k]] | none => []) ++ w.mints.map (fun m => [b! "mint", m])), []⟩
  else none

/-- wallet.go:259-269. -/
def allKeysets (env : Env) : List Bytes → Option (List Bytes)
  | [] => some []
  | m :: rest => match env.keysets m with
    | none => none
    | some ids => (allKeysets env rest).map (ids ++ ·)

/-- wallet.go:283-289. -/
def checkIds (env : Env) : List Bytes → List Bytes → Option (List Bytes)
  | seen, [] => some seen
  | seen, id :: rest => if env.collides seen id then none else checkIds env (seen ++ [id]) rest

/-- The loop over the urls (wallet.go:271-292): whether it went through, and the mints then. -/
def addLoop (env : Env) : List Bytes → List Bytes → List Bytes → Bool × List Bytes
  | mints, _, [] => (true, mints)
  | mints, seen, u :: rest => match env.norm u with
    | none => (false, mints)
    | some url =>
      if url ∈ mints then addLoop env mints seen rest
      else match env.keysets url with
        | none => (false, mints)
        | some ids => match checkIds env seen ids with
          | none => (false, mints)
          | some seen' => addLoop env (mints ++ [url]) seen' rest

/-- The end of all three (wallet.go:294-303): what was published, if it succeeded. -/
def finish (env : Env) (w : Wallet) : Option MetaEvent × Wallet := (toEvent env w, w)

/-- `AddMint` (wallet.go:254-304): the published event (`none` on an error), and the wallet. -/
def addMint (env : Env) (w : Wallet) (urls : List Bytes) : Option MetaEvent × Wallet :=
  if ¬ w.canPublish then (none, w)
  else match allKeysets env w.mints with
    | none => (none, w)
    | some seen =>
      let (ok, ms) := addLoop env w.mints seen urls
      if ok then finish env { w with mints := ms } else (none, { w with mints := ms })

/-- The loop of `RemoveMint` (wallet.go:311-320). -/
def removeLoop (env : Env) : List Bytes → List Bytes → Bool × List Bytes
  | mints, [] => (true, mints)
  | mints, u :: rest => match env.norm u with
    | none => (false, mints)
    | some url => removeLoop env (mints.erase url) rest

/-- `RemoveMint` (wallet.go:306-332). -/
def removeMint (env : Env) (w : Wallet) (urls : List Bytes) : Option MetaEvent × Wallet :=
  if ¬ w.canPublish then (none, w)
  else
    let (ok, ms) := removeLoop env w.mints urls
    if ok then finish env { w with mints := ms } else (none, { w with mints := ms })

/-- `SetPrivateKey` (wallet.go:334-359; the public key goes with it and is left out). -/
def setKey (env : Env) (w : Wallet) (s : Bytes) : Option MetaEvent × Wallet :=
  if ¬ w.canPublish then (none, w)
  else match hexDec s with
    | none => (none, w)
    | some skb => if skb.length ≠ 32 then (none, w) else finish env { w with key := some (env.reduce skb) }

/-! ## What is published is what is read -/

theorem mints_tags (ms : List Bytes) : mintsOf (ms.map (fun m => [b! "mint", m])) = ms ∧ keysOf (ms.map (fun m => [b! "mint", m])) = [] := by
  induction ms with
  | nil => exact ⟨rfl, rfl⟩
  | cons m ms ih =>
    refine ⟨?_, ?_⟩
    · have : mintsOf (([b! "mint", m]) :: ms.map (fun m => [b! "mint", m])) = m :: mintsOf (ms.map (fun m => [b! "mint", m])) := by simp [mintsOf]
      rw [List.map_cons, this, ih.1]
    · have hne : ¬ b! "mint" = b! "privkey" := by decide +kernel
      have : keysOf (([b! "mint", m]) :: ms.map (fun m => [b! "mint", m])) = keysOf (ms.map (fun m => [b! "mint", m])) := by simp [keysOf, hne]
      rw [List.map_cons, this, ih.2]

/-- **C136 (round trip).** What another client reads from a published event: the same mints in the same order, and the key; if the wallet has no key, the reader keeps the one it had. -/
theorem C136_round_trip (env : Env) (w : Wallet) (e : MetaEvent) (h : toEvent env w = some e) (reader : Meta) :
    onMeta reader e = ⟨some e, w.mints, w.key.or reader.key⟩ := by
  unfold toEvent at h
  split at h
  · injection h with h
    obtain ⟨h1, h2⟩ := mints_tags w.mints
    cases hk : w.key with
    | none =>
      rw [hk] at h
      have ht : e.tags = w.mints.map (fun m => [b! "mint", m]) := by rw [← h]; simp [MetaEvent.tags]
      have hr : Readable e := ⟨by rw [← h], by rw [ht, h2]; simp⟩
      rw [onMeta_readable reader e hr, ht, h1, h2]
      simp
    | some k =>
      rw [hk] at h
      have ht : e.tags = [b! "privkey", hexEnc k] :: w.mints.map (fun m => [b! "mint", m]) := by rw [← h]; simp [MetaEvent.tags]
      have hne : ¬ b! "privkey" = b! "mint" := by decide +kernel
      have hm : mintsOf e.tags = w.mints := by
        rw [ht]
        have : ∀ l, mintsOf ([b! "privkey", hexEnc k] :: l) = mintsOf l := by intro l; simp [mintsOf, hne]
        rw [this, h1]
      have hks : keysOf e.tags = [hexEnc k] := by
        rw [ht]
        have : ∀ l, keysOf ([b! "privkey", hexEnc k] :: l) = hexEnc k :: keysOf l := by intro l; simp [keysOf]
        rw [this, h2]
      have hd : hexDec (hexEnc k) = some k := hexDec_hexEnc k
      have hr : Readable e := ⟨by rw [← h], by rw [hks]; simp [hd]⟩
      rw [onMeta_readable reader e hr, hm, hks]
      simp [hd]
  · cases h

example : ∃ e, toEvent ⟨some, fun _ => some [], fun _ _ => false, true, 7, id⟩ ⟨true, [b! "a", b! "b"], some (List.replicate 32 1)⟩ = some e ∧
    (onMeta ⟨none, [b! "x"], none⟩ e).mints = [b! "a", b! "b"] := by
  refine ⟨_, rfl, ?_⟩
  rw [C136_round_trip ⟨some, fun _ => some [], fun _ _ => false, true, 7, id⟩ ⟨true, [b! "a", b! "b"], some (List.replicate 32 1)⟩ _ rfl]

/-! ## Adding -/

theorem addLoop_spec (env : Env) (urls : List Bytes) : ∀ (mints seen : List Bytes),
    (∃ new, (addLoop env mints seen urls).2 = mints ++ new ∧ (∀ m ∈ new, m ∉ mints ∧ ∃ u ∈ urls, env.norm u = some m) ∧ new.Nodup) ∧
    ((addLoop env mints seen urls).1 = true → ∀ u ∈ urls, ∃ m, env.norm u = some m ∧ m ∈ (addLoop env mints seen urls).2) := by
  induction urls with
  | nil => intro mints seen; exact ⟨⟨[], by simp [addLoop], by simp, List.nodup_nil⟩, by simp⟩
  | cons u rest ih =>
    intro mints seen
    simp only [addLoop]
    cases hn : env.norm u with
    | none => exact ⟨⟨[], by simp, by simp, List.nodup_nil⟩, by simp⟩
    | some url =>
      simp only
      by_cases hm : url ∈ mints
      · rw [if_pos hm]
        obtain ⟨⟨new, h1, h2, h3⟩, h4⟩ := ih mints seen
        refine ⟨⟨new, h1, fun m hx => ?_, h3⟩, fun hok v hv => ?_⟩
        · obtain ⟨a, v, hv, b⟩ := h2 m hx; exact ⟨a, v, List.mem_cons_of_mem _ hv, b⟩
        · rcases List.mem_cons.1 hv with rfl | hv
          · exact ⟨url, hn, by rw [h1]; exact List.mem_append_left _ hm⟩
          · exact h4 hok v hv
      · rw [if_neg hm]
        cases hk : env.keysets url with
        | none => exact ⟨⟨[], by simp, by simp, List.nodup_nil⟩, by simp⟩
        | some ids =>
          simp only
          cases hc : checkIds env seen ids with
          | none => exact ⟨⟨[], by simp, by simp, List.nodup_nil⟩, by simp⟩
          | some seen' =>
            simp only
            obtain ⟨⟨new, h1, h2, h3⟩, h4⟩ := ih (mints ++ [url]) seen'
            refine ⟨⟨url :: new, by rw [h1]; simp, fun m hx => ?_, ?_⟩, fun hok v hv => ?_⟩
            · rcases List.mem_cons.1 hx with rfl | hx
              · exact ⟨hm, u, by simp, hn⟩
              · obtain ⟨a, v, hv, b⟩ := h2 m hx
                exact ⟨fun h => a (List.mem_append_left _ h), v, List.mem_cons_of_mem _ hv, b⟩
            · rw [List.nodup_cons]
              exact ⟨fun h => (h2 url h).1 (by simp), h3⟩
            · rcases List.mem_cons.1 hv with rfl | hv
              · exact ⟨url, hn, by rw [h1]; simp⟩
              · exact h4 hok v hv

/-- **C136 (adding).** A successful `AddMint` keeps the mints there were, in order, and adds after them the named ones that were missing, each once, under their normalized names, and
nothing else; the key stays; that is what readers of the published event get. -/
theorem C136_add (env : Env) (w : Wallet) (urls : List Bytes) (e : MetaEvent) (w' : Wallet) (h : addMint env w urls = (some e, w')) :
    w'.key = w.key ∧ (∃ new, w'.mints = w.mints ++ new ∧ new.Nodup ∧ ∀ m ∈ new, m ∉ w.mints ∧ ∃ u ∈ urls, env.norm u = some m) ∧
    (∀ u ∈ urls, ∃ m, env.norm u = some m ∧ m ∈ w'.mints) ∧ ∀ reader, onMeta reader e = ⟨some e, w'.mints, w'.key.or reader.key⟩ := by
  unfold addMint at h
  split at h
  · cases h
  · split at h
    · cases h
    · rename_i seen hs
      obtain ⟨⟨new, h1, h2, h3⟩, h4⟩ := addLoop_spec env urls w.mints seen
      cases hl : addLoop env w.mints seen urls with
      | mk ok ms =>
        rw [hl] at h h1 h4
        simp only at h h1 h4
        cases ok with
        | false => simp at h
        | true =>
          simp only [if_true, finish, Prod.mk.injEq] at h
          obtain ⟨he, hw⟩ := h
          rw [hw] at he
          subst hw
          exact ⟨rfl, ⟨new, h1, h3, h2⟩, h4 rfl, fun reader => C136_round_trip env _ e he reader⟩

example : addMint ⟨some, fun u => some [u], fun s i => decide (i ∈ s), true, 7, id⟩ ⟨true, [b! "a"], none⟩ [b! "b", b! "a", b! "b"] =
    (some ⟨7, true, some [[b! "mint", b! "a"], [b! "mint", b! "b"]], []⟩, ⟨true, [b! "a", b! "b"], none⟩) := by decide +kernel

/-- **C136 (a failed addition is half done).** When `AddMint` fails at a later url, the earlier ones are in the wallet although an error is returned and nothing is published. -/
theorem C136_add_half_done : ∃ (env : Env) (w : Wallet) (a b : Bytes), ∃ w', addMint env w [a, b] = (none, w') ∧ w.mints = [] ∧ w'.mints = [a] ∧
    ∃ e, (removeMint env w' [b! "other"]) = (some e, w') ∧ ∀ reader, (onMeta reader e).mints = [a] := by
  let env : Env := ⟨some, fun u => if u = b! "b" then none else some [u], fun s i => decide (i ∈ s), true, 7, id⟩
  refine ⟨env, ⟨true, [], none⟩, b! "a", b! "b", ⟨true, [b! "a"], none⟩, by decide +kernel, rfl, rfl, ⟨7, true, some [[b! "mint", b! "a"]], []⟩, by decide +kernel, fun reader => ?_⟩
  rw [C136_round_trip env ⟨true, [b! "a"], none⟩ _ (by decide +kernel)]

/-- **C136 (colliding keysets).** A mint with a keyset that collides with one already known is refused, and the wallet stays as it is. -/
theorem C136_add_collision (env : Env) (w : Wallet) (u url : Bytes) (seen ids : List Bytes) (hn : env.norm u = some url) (hnew : url ∉ w.mints)
    (hs : allKeysets env w.mints = some seen) (hk : env.keysets url = some ids) (id : Bytes) (hid : id ∈ ids)
    (hmono : ∀ s t, (∀ x ∈ s, x ∈ t) → ∀ i, env.collides s i = true → env.collides t i = true) (hc : env.collides seen id = true) :
    addMint env w [u] = (none, w) := by
  have hcheck : ∀ (ids seen' : List Bytes), (∀ x ∈ seen, x ∈ seen') → id ∈ ids → checkIds env seen' ids = none := by
    intro ids
    induction ids with
    | nil => intro _ _ h; simp at h
    | cons i rest ih =>
      intro seen' hsub hm
      simp only [checkIds]
      split
      · rfl
      · rename_i hi
        rcases List.mem_cons.1 hm with rfl | hm
        · exact absurd (hmono _ _ hsub _ hc) hi
        · exact ih _ (fun x hx => List.mem_append_left _ (hsub x hx)) hm
  unfold addMint
  split
  · rfl
  · simp [hs, addLoop, hn, hnew, hk, hcheck ids seen (fun x hx => hx) hid]

/-! ## Removing -/

theorem removeLoop_nodup (env : Env) (urls : List Bytes) : ∀ mints, mints.Nodup → (removeLoop env mints urls).1 = true →
    (removeLoop env mints urls).2 = mints.filter (fun m => decide (∀ u ∈ urls, env.norm u ≠ some m)) := by
  induction urls with
  | nil => intro mints _ _; simp only [removeLoop]; exact (List.filter_eq_self.2 (by simp)).symm
  | cons u rest ih =>
    intro mints hn hok
    simp only [removeLoop] at hok ⊢
    cases hu : env.norm u with
    | none => rw [hu] at hok; simp at hok
    | some url =>
      rw [hu] at hok
      simp only at hok ⊢
      rw [ih _ (hn.erase url) hok, hn.erase_eq_filter, List.filter_filter]
      apply List.filter_congr
      intro m _
      by_cases he : url = m
      · subst he; simp [hu]
      · have : m ≠ url := fun h => he h.symm
        simp [hu, he, this]

/-- **C136 (removing).** A successful `RemoveMint` takes exactly the named mints away, if the wallet has none twice, keeps the others in order, and publishes that. -/
theorem C136_remove_partial (env : Env) (w : Wallet) (hd : w.mints.Nodup) (urls : List Bytes) (e : MetaEvent) (w' : Wallet) (h : removeMint env w urls = (some e, w')) :
    w'.key = w.key ∧ w'.mints = w.mints.filter (fun m => decide (∀ u ∈ urls, env.norm u ≠ some m)) ∧
    ∀ reader, onMeta reader e = ⟨some e, w'.mints, w'.key.or reader.key⟩ := by
  unfold removeMint at h
  split at h
  · cases h
  · have hr := removeLoop_nodup env urls w.mints hd
    cases hl : removeLoop env w.mints urls with
    | mk ok ms =>
      rw [hl] at h hr
      simp only at h hr
      cases ok with
      | false => simp at h
      | true =>
        simp only [if_true, finish, Prod.mk.injEq] at h
        obtain ⟨he, hw⟩ := h
        rw [hw] at he
        subst hw
        exact ⟨rfl, hr rfl, fun reader => C136_round_trip env _ e he reader⟩

example : removeMint ⟨some, fun u => some [u], fun s i => decide (i ∈ s), true, 7, id⟩ ⟨true, [b! "a", b! "b", b! "c"], none⟩ [b! "b", b! "z"] =
    (some ⟨7, true, some [[b! "mint", b! "a"], [b! "mint", b! "c"]], []⟩, ⟨true, [b! "a", b! "c"], none⟩) := by decide +kernel

/-- Adding never makes a mint appear twice. -/
theorem C136_add_nodup (env : Env) (w : Wallet) (hd : w.mints.Nodup) (urls : List Bytes) : (addMint env w urls).2.mints.Nodup := by
  unfold addMint
  split
  · exact hd
  · split
    · exact hd
    · rename_i seen hs
      obtain ⟨⟨new, h1, h2, h3⟩, -⟩ := addLoop_spec env urls w.mints seen
      have : (addLoop env w.mints seen urls).2.Nodup := by
        rw [h1, List.nodup_append]
        exact ⟨hd, h3, fun a ha b hb he => (h2 b hb).1 (he ▸ ha)⟩
      simp only
      split <;> exact this

/-- **C136 (a mint that cannot be removed).** Mints read from an event are kept as they are written, so one that `NormalizeHTTPURL` would write differently stays when it is removed
by its name. -/
theorem C136_not_removed (env : Env) (w : Wallet) (hw : w.canPublish = true) (m n : Bytes) (hm : m ∈ w.mints) (hn : env.norm m = some n) (hne : n ≠ m) (hk : env.keyer = true) :
    ∃ e w', removeMint env w [m] = (some e, w') ∧ m ∈ w'.mints := by
  refine ⟨⟨env.now, true, some ((match w.key with | some k => [[b! "privkey", hexEnc k]] | none => []) ++ (w.mints.erase n).map (fun m => [b! "mint", m])), []⟩,
    { w with mints := w.mints.erase n }, ?_, ?_⟩
  · simp only [removeMint, hw, removeLoop, hn, finish, toEvent, hk]
    simp
  · exact (List.mem_erase_of_ne (fun h => hne h.symm)).2 hm

/-- **C136 (a mint twice).** A wallet event may name a mint twice; removing it takes away one of the two. -/
theorem C136_twice (env : Env) (hk : env.keyer = true) (m : Bytes) (hn : env.norm m = some m) :
    ∃ (e0 : MetaEvent), (onMeta ⟨none, [], none⟩ e0).mints = [m, m] ∧ ∃ e w', removeMint env ⟨true, [m, m], none⟩ [m] = (some e, w') ∧ w'.mints = [m] := by
  refine ⟨⟨1, true, some [[b! "mint", m], [b! "mint", m]], []⟩, ?_, ⟨env.now, true, some [[b! "mint", m]], []⟩, ⟨true, [m], none⟩, ?_, rfl⟩
  · simp [onMeta, parseMeta, readTags, MetaEvent.tags]
  · simp [removeMint, removeLoop, hn, finish, toEvent, hk]

/-! ## The key -/

/-- **C136 (the key).** `SetPrivateKey` takes exactly 64 hexadecimal digits; then the mints stay and readers of the published event get that key. Otherwise nothing changes and nothing
is published. -/
theorem C136_key (env : Env) (w : Wallet) (s : Bytes) :
    (∀ e w', setKey env w s = (some e, w') → ∃ skb, hexDec s = some skb ∧ skb.length = 32 ∧ w' = { w with key := some (env.reduce skb) } ∧
      ∀ reader, onMeta reader e = ⟨some e, w.mints, some (env.reduce skb)⟩) ∧
    ((∀ skb, hexDec s = some skb → skb.length ≠ 32) → setKey env w s = (none, w)) := by
  refine ⟨fun e w' h => ?_, fun h => ?_⟩
  · unfold setKey at h
    split at h
    · cases h
    · split at h
      · cases h
      · rename_i skb hs
        split at h
        · cases h
        · rename_i hl
          simp only [finish, Prod.mk.injEq] at h
          obtain ⟨he, hw⟩ := h
          refine ⟨skb, hs, by simpa using hl, hw.symm, fun reader => ?_⟩
          rw [C136_round_trip env _ e he reader]
          simp
  · unfold setKey
    split
    · rfl
    · cases hs : hexDec s with
      | none => rfl
      | some skb => simp [h skb hs]

example : ∃ e w', setKey ⟨some, fun _ => none, fun _ _ => false, true, 7, id⟩ ⟨true, [b! "a"], none⟩ (hexEnc (List.replicate 32 9)) = (some e, w') ∧
    w'.key = some (List.replicate 32 9) :=
  ⟨⟨7, true, some [[b! "privkey", hexEnc (List.replicate 32 9)], [b! "mint", b! "a"]], []⟩, ⟨true, [b! "a"], some (List.replicate 32 9)⟩, by decide +kernel, rfl⟩

/-- **C136 (without a publisher).** Without `PublishUpdate` nothing changes. -/
theorem C136_read_only (env : Env) (w : Wallet) (h : w.canPublish = false) (urls : List Bytes) (s : Bytes) :
    addMint env w urls = (none, w) ∧ removeMint env w urls = (none, w) ∧ setKey env w s = (none, w) := by
  simp [addMint, removeMint, setKey, h]

end GoNostr.Nip60.Settings
