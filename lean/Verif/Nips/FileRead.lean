import Verif.Nips.CalRead
/-! C91: what a file's metadata are, for any tags -/

set_option autoImplicit false

namespace GoNostr.Codec.FileRead
open GoNostr GoNostr.Codec GoNostr.Codec.CalRead

theorem read : ∀ (tags : List (List Bytes)) (f : FileMeta),
    let r := tags.foldl fileStep f
    r.url = (vals (b! "url") tags).getLast?.getD f.url ∧ r.x = (vals (b! "x") tags).getLast?.getD f.x ∧ r.ox = (vals (b! "ox") tags).getLast?.getD f.ox ∧ r.size = (vals (b! "size") tags).getLast?.getD f.size ∧ r.dim = (vals (b! "dim") tags).getLast?.getD f.dim ∧ r.magnet = (vals (b! "magnet") tags).getLast?.getD f.magnet ∧ r.infohash = (vals (b! "i") tags).getLast?.getD f.infohash ∧ r.blurhash = (vals (b! "blurhash") tags).getLast?.getD f.blurhash ∧ r.image = (vals (b! "thumb") tags).getLast?.getD f.image ∧ r.summary = (vals (b! "summary") tags).getLast?.getD f.summary ∧ r.m = f.m ∧ r.thumb = f.thumb ∧ r.content = f.content
  | [], f => by simp [vals]
  | t :: tags, f => by
    have ih := read tags (fileStep f t)
    simp only [List.foldl_cons] at ih ⊢
    obtain ⟨i0, i1, i2, i3, i4, i5, i6, i7, i8, i9, i10, i11, i12⟩ := ih
    rw [i0, i1, i2, i3, i4, i5, i6, i7, i8, i9, i10, i11, i12]
    match t with
    | [] => exact ⟨rfl, rfl, rfl, rfl, rfl, rfl, rfl, rfl, rfl, rfl, rfl, rfl, rfl⟩
    | [a] => exact ⟨rfl, rfl, rfl, rfl, rfl, rfl, rfl, rfl, rfl, rfl, rfl, rfl, rfl⟩
    | k :: v :: rest =>
      have hv : ∀ x, vals x ((k :: v :: rest) :: tags) = if k = x then v :: vals x tags else vals x tags := by
        intro x
        by_cases h : k = x <;> simp [vals, h]
      simp only [hv, fileStep]
      by_cases h_url : k = b! "url"
      · subst h_url
        clear hv i0 i1 i2 i3 i4 i5 i6 i7 i8 i9 i10 i11 i12
        refine ⟨?_, ?_, ?_, ?_, ?_, ?_, ?_, ?_, ?_, ?_, ?_, ?_, ?_⟩ <;> first | rfl | exact (last_cons _ _ _).symm
      by_cases h_x : k = b! "x"
      · subst h_x
        clear hv i0 i1 i2 i3 i4 i5 i6 i7 i8 i9 i10 i11 i12
        refine ⟨?_, ?_, ?_, ?_, ?_, ?_, ?_, ?_, ?_, ?_, ?_, ?_, ?_⟩ <;> first | rfl | exact (last_cons _ _ _).symm
      by_cases h_ox : k = b! "ox"
      · subst h_ox
        clear hv i0 i1 i2 i3 i4 i5 i6 i7 i8 i9 i10 i11 i12
        refine ⟨?_, ?_, ?_, ?_, ?_, ?_, ?_, ?_, ?_, ?_, ?_, ?_, ?_⟩ <;> first | rfl | exact (last_cons _ _ _).symm
      by_cases h_size : k = b! "size"
      · subst h_size
        clear hv i0 i1 i2 i3 i4 i5 i6 i7 i8 i9 i10 i11 i12
        refine ⟨?_, ?_, ?_, ?_, ?_, ?_, ?_, ?_, ?_, ?_, ?_, ?_, ?_⟩ <;> first | rfl | exact (last_cons _ _ _).symm
      by_cases h_dim : k = b! "dim"
      · subst h_dim
        clear hv i0 i1 i2 i3 i4 i5 i6 i7 i8 i9 i10 i11 i12
        refine ⟨?_, ?_, ?_, ?_, ?_, ?_, ?_, ?_, ?_, ?_, ?_, ?_, ?_⟩ <;> first | rfl | exact (last_cons _ _ _).symm
      by_cases h_magnet : k = b! "magnet"
      · subst h_magnet
        clear hv i0 i1 i2 i3 i4 i5 i6 i7 i8 i9 i10 i11 i12
        refine ⟨?_, ?_, ?_, ?_, ?_, ?_, ?_, ?_, ?_, ?_, ?_, ?_, ?_⟩ <;> first | rfl | exact (last_cons _ _ _).symm
      by_cases h_i : k = b! "i"
      · subst h_i
        clear hv i0 i1 i2 i3 i4 i5 i6 i7 i8 i9 i10 i11 i12
        refine ⟨?_, ?_, ?_, ?_, ?_, ?_, ?_, ?_, ?_, ?_, ?_, ?_, ?_⟩ <;> first | rfl | exact (last_cons _ _ _).symm
      by_cases h_blurhash : k = b! "blurhash"
      · subst h_blurhash
        clear hv i0 i1 i2 i3 i4 i5 i6 i7 i8 i9 i10 i11 i12
        refine ⟨?_, ?_, ?_, ?_, ?_, ?_, ?_, ?_, ?_, ?_, ?_, ?_, ?_⟩ <;> first | rfl | exact (last_cons _ _ _).symm
      by_cases h_thumb : k = b! "thumb"
      · subst h_thumb
        clear hv i0 i1 i2 i3 i4 i5 i6 i7 i8 i9 i10 i11 i12
        refine ⟨?_, ?_, ?_, ?_, ?_, ?_, ?_, ?_, ?_, ?_, ?_, ?_, ?_⟩ <;> first | rfl | exact (last_cons _ _ _).symm
      by_cases h_summary : k = b! "summary"
      · subst h_summary
        clear hv i0 i1 i2 i3 i4 i5 i6 i7 i8 i9 i10 i11 i12
        refine ⟨?_, ?_, ?_, ?_, ?_, ?_, ?_, ?_, ?_, ?_, ?_, ?_, ?_⟩ <;> first | rfl | exact (last_cons _ _ _).symm
      simp only [if_neg h_url, if_neg h_x, if_neg h_ox, if_neg h_size, if_neg h_dim, if_neg h_magnet, if_neg h_i, if_neg h_blurhash, if_neg h_thumb, if_neg h_summary]
      exact ⟨trivial, trivial, trivial, trivial, trivial, trivial, trivial, trivial, trivial, trivial, trivial, trivial, trivial⟩

/-- C91: the metadata read from any tags are the values of the last tag of each name; the `thumb` tag is read as the image; the type of the file, the thumbnail and the content are never read. -/
theorem C91_file_read (tags : List (List Bytes)) :
    let r := parseFile tags
    r.url = last (b! "url") tags ∧ r.x = last (b! "x") tags ∧ r.ox = last (b! "ox") tags ∧ r.size = last (b! "size") tags ∧ r.dim = last (b! "dim") tags ∧ r.magnet = last (b! "magnet") tags ∧ r.infohash = last (b! "i") tags ∧ r.blurhash = last (b! "blurhash") tags ∧ r.image = last (b! "thumb") tags ∧ r.summary = last (b! "summary") tags ∧ r.m = [] ∧ r.thumb = [] ∧ r.content = [] := by
  have := read tags FileMeta.empty
  simpa [parseFile, last, FileMeta.empty] using this

/-- C91: what is displayed for a file: its image if it has one; otherwise its url if its type is "image" or begins with "image/"; otherwise nothing. -/
theorem C91_display (f : FileMeta) :
    (f.image ≠ [] → displayImage f = f.image) ∧
    (f.image = [] → (f.m = b! "image" ∨ ∃ rest, f.m = b! "image/" ++ rest) → displayImage f = f.url) ∧
    (f.image = [] → ¬(f.m = b! "image" ∨ ∃ rest, f.m = b! "image/" ++ rest) → displayImage f = []) := by
  refine ⟨fun h => by simp [displayImage, h], ?_, ?_⟩
  · rintro h (hm | ⟨rest, hm⟩)
    · have : firstPart f.m = b! "image" := by rw [hm]; decide +kernel
      simp [displayImage, h, this]
    · have : firstPart f.m = b! "image" := by rw [hm]; rfl
      simp [displayImage, h, this]
  · intro h hm
    have : firstPart f.m ≠ b! "image" := by
      intro he
      apply hm
      have h1 : f.m = f.m.takeWhile (· != 47) ++ f.m.dropWhile (· != 47) := List.takeWhile_append_dropWhile.symm
      rw [show f.m.takeWhile (· != 47) = b! "image" from he] at h1
      cases hd : f.m.dropWhile (· != 47) with
      | nil => left; rw [h1, hd]; rfl
      | cons a rest =>
        right
        have h2 := List.head?_dropWhile_not (· != 47) f.m
        rw [hd] at h2
        simp at h2
        refine ⟨rest, ?_⟩
        rw [h1, hd, h2]; rfl
    simp [displayImage, h, this]

/-- C91: so what is displayed for a file read from an event is its last `thumb` tag. -/
theorem C91_displayed_is_thumb (tags : List (List Bytes)) : displayImage (parseFile tags) = last (b! "thumb") tags := by
  obtain ⟨_, _, _, _, _, _, _, _, hi, _, hm, _, _⟩ := C91_file_read tags
  obtain ⟨h1, _, h3⟩ := C91_display (parseFile tags)
  by_cases he : (parseFile tags).image = []
  · rw [h3 he (by rw [hm]; rintro (h | ⟨r, h⟩) <;> cases h), ← hi, he]
  · rw [h1 he, hi]

/-- Non-vacuity. -/
example : displayImage (parseFile [[b! "thumb", b! "a"], [b! "url", b! "u"], [b! "thumb", b! "b"]]) = b! "b" := by decide +kernel
example : displayImage { FileMeta.empty with m := b! "image/png", url := b! "u" } = b! "u" := by decide +kernel

end GoNostr.Codec.FileRead
