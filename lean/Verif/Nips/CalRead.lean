import Verif.Nips.Codecs
/-! C91: what a calendar event's fields are, for any tags -/

set_option autoImplicit false

namespace GoNostr.Codec.CalRead
open GoNostr GoNostr.Codec

/-- Specification: the values of the tags with that name, in order. -/
def vals (k : Bytes) (tags : List (List Bytes)) : List Bytes :=
  tags.filterMap (fun t => match t with
    | a :: v :: _ => if a = k then some v else none
    | _ => none)

/-- Specification: the value of the last tag with that name, or nothing. -/
def last (k : Bytes) (tags : List (List Bytes)) : Bytes := (vals k tags).getLast?.getD []

theorem last_cons (c : Bytes) (v : Bytes) (l : List Bytes) : (v :: l).getLast?.getD c = l.getLast?.getD v := by
  cases l with
  | nil => rfl
  | cons a l => simp [List.getLast?_cons]

theorem read (d : Dates) : ∀ (tags : List (List Bytes)) (c : Cal),
    let r := tags.foldl (calStep d) c
    r.kind = c.kind ∧ r.id = (vals (b! "d") tags).getLast?.getD c.id ∧ r.title = (vals (b! "title") tags).getLast?.getD c.title ∧ r.image = (vals (b! "image") tags).getLast?.getD c.image ∧
    r.startTz = (vals (b! "start_tzid") tags).getLast?.getD c.startTz ∧ r.endTz = (vals (b! "end_tzid") tags).getLast?.getD c.endTz ∧
    r.locations = c.locations ++ vals (b! "location") tags ∧ r.geohashes = c.geohashes ++ vals (b! "g") tags ∧
    r.references = c.references ++ vals (b! "r") tags ∧ r.hashtags = c.hashtags ++ vals (b! "t") tags
  | [], c => by simp [vals]
  | t :: tags, c => by
    have ih := read d tags (calStep d c t)
    simp only [List.foldl_cons] at ih ⊢
    obtain ⟨i0, i1, i2, i3, i4, i5, i6, i7, i8, i9⟩ := ih
    rw [i0, i1, i2, i3, i4, i5, i6, i7, i8, i9]
    match t with
    | [] => exact ⟨rfl, rfl, rfl, rfl, rfl, rfl, rfl, rfl, rfl, rfl⟩
    | [a] => exact ⟨rfl, rfl, rfl, rfl, rfl, rfl, rfl, rfl, rfl, rfl⟩
    | k :: v :: rest =>
      have hv : ∀ x, vals x ((k :: v :: rest) :: tags) = if k = x then v :: vals x tags else vals x tags := by
        intro x
        by_cases h : k = x <;> simp [vals, h]
      simp only [hv, calStep]
      by_cases h_d : k = b! "d"
      · subst h_d
        clear hv i0 i1 i2 i3 i4 i5 i6 i7 i8 i9
        refine ⟨?_, ?_, ?_, ?_, ?_, ?_, ?_, ?_, ?_, ?_⟩ <;> first | rfl | exact (last_cons _ _ _).symm | exact List.append_assoc _ _ _
      by_cases h_title : k = b! "title"
      · subst h_title
        clear hv i0 i1 i2 i3 i4 i5 i6 i7 i8 i9
        refine ⟨?_, ?_, ?_, ?_, ?_, ?_, ?_, ?_, ?_, ?_⟩ <;> first | rfl | exact (last_cons _ _ _).symm | exact List.append_assoc _ _ _
      by_cases h_image : k = b! "image"
      · subst h_image
        clear hv i0 i1 i2 i3 i4 i5 i6 i7 i8 i9
        refine ⟨?_, ?_, ?_, ?_, ?_, ?_, ?_, ?_, ?_, ?_⟩ <;> first | rfl | exact (last_cons _ _ _).symm | exact List.append_assoc _ _ _
      by_cases h_start : k = b! "start"
      · subst h_start
        clear hv i0 i1 i2 i3 i4 i5 i6 i7 i8 i9
        cases calTime d c.kind v <;> refine ⟨?_, ?_, ?_, ?_, ?_, ?_, ?_, ?_, ?_, ?_⟩ <;> first | rfl | exact (last_cons _ _ _).symm | exact List.append_assoc _ _ _
      by_cases h_end : k = b! "end"
      · subst h_end
        clear hv i0 i1 i2 i3 i4 i5 i6 i7 i8 i9
        cases calTime d c.kind v <;> refine ⟨?_, ?_, ?_, ?_, ?_, ?_, ?_, ?_, ?_, ?_⟩ <;> first | rfl | exact (last_cons _ _ _).symm | exact List.append_assoc _ _ _
      by_cases h_location : k = b! "location"
      · subst h_location
        clear hv i0 i1 i2 i3 i4 i5 i6 i7 i8 i9
        refine ⟨?_, ?_, ?_, ?_, ?_, ?_, ?_, ?_, ?_, ?_⟩ <;> first | rfl | exact (last_cons _ _ _).symm | exact List.append_assoc _ _ _
      by_cases h_g : k = b! "g"
      · subst h_g
        clear hv i0 i1 i2 i3 i4 i5 i6 i7 i8 i9
        refine ⟨?_, ?_, ?_, ?_, ?_, ?_, ?_, ?_, ?_, ?_⟩ <;> first | rfl | exact (last_cons _ _ _).symm | exact List.append_assoc _ _ _
      by_cases h_p : k = b! "p"
      · subst h_p
        clear hv i0 i1 i2 i3 i4 i5 i6 i7 i8 i9
        cases isValid32ByteHex v <;> refine ⟨?_, ?_, ?_, ?_, ?_, ?_, ?_, ?_, ?_, ?_⟩ <;> first | rfl | exact (last_cons _ _ _).symm | exact List.append_assoc _ _ _
      by_cases h_r : k = b! "r"
      · subst h_r
        clear hv i0 i1 i2 i3 i4 i5 i6 i7 i8 i9
        refine ⟨?_, ?_, ?_, ?_, ?_, ?_, ?_, ?_, ?_, ?_⟩ <;> first | rfl | exact (last_cons _ _ _).symm | exact List.append_assoc _ _ _
      by_cases h_t : k = b! "t"
      · subst h_t
        clear hv i0 i1 i2 i3 i4 i5 i6 i7 i8 i9
        refine ⟨?_, ?_, ?_, ?_, ?_, ?_, ?_, ?_, ?_, ?_⟩ <;> first | rfl | exact (last_cons _ _ _).symm | exact List.append_assoc _ _ _
      by_cases h_start_tzid : k = b! "start_tzid"
      · subst h_start_tzid
        clear hv i0 i1 i2 i3 i4 i5 i6 i7 i8 i9
        refine ⟨?_, ?_, ?_, ?_, ?_, ?_, ?_, ?_, ?_, ?_⟩ <;> first | rfl | exact (last_cons _ _ _).symm | exact List.append_assoc _ _ _
      by_cases h_end_tzid : k = b! "end_tzid"
      · subst h_end_tzid
        clear hv i0 i1 i2 i3 i4 i5 i6 i7 i8 i9
        refine ⟨?_, ?_, ?_, ?_, ?_, ?_, ?_, ?_, ?_, ?_⟩ <;> first | rfl | exact (last_cons _ _ _).symm | exact List.append_assoc _ _ _
      simp only [if_neg h_d, if_neg h_title, if_neg h_image, if_neg h_start, if_neg h_end, if_neg h_location, if_neg h_g, if_neg h_p, if_neg h_r, if_neg h_t, if_neg h_start_tzid, if_neg h_end_tzid]
      exact ⟨trivial, trivial, trivial, trivial, trivial, trivial, trivial, trivial, trivial, trivial⟩

/-- C91: the fields of a calendar event read from any tags are the values of the last tag of each name, or of all of them for locations, geohashes, references and hashtags. -/
theorem C91_calendar_read (d : Dates) (kind : Int) (tags : List (List Bytes)) :
    let r := parseCal d kind tags
    r.kind = kind ∧ r.id = last (b! "d") tags ∧ r.title = last (b! "title") tags ∧ r.image = last (b! "image") tags ∧
    r.startTz = last (b! "start_tzid") tags ∧ r.endTz = last (b! "end_tzid") tags ∧
    r.locations = vals (b! "location") tags ∧ r.geohashes = vals (b! "g") tags ∧
    r.references = vals (b! "r") tags ∧ r.hashtags = vals (b! "t") tags := by
  have := read d tags (Cal.empty kind)
  simpa [parseCal, last, Cal.empty] using this

/-- Non-vacuity: the last of two wins. -/
example : (parseCal ⟨fun _ => [], fun _ => none⟩ 31923 [[b! "end_tzid", b! "x"], [b! "start_tzid", b! "s"], [b! "end_tzid", b! "y", b! "z"], [b! "t", b! "u"]]).endTz = b! "y" := by decide +kernel

end GoNostr.Codec.CalRead
