import Verif.Spec.Clash
import Verif.Lemmas.Run

/-!
# Sending only the blobs that are new
-/

namespace Backpak

open Spec

variable {Id : Type} [LinearOrder Id] {C : Codec Id}

theorem unmixed_eq {U : Blob Id → Prop} (h : Unmixed C U) {b b' : Blob Id} (hb : U b) (hb' : U b')
    (h1 : C.hash b.data = b.id) (h2 : C.hash b'.data = b'.id) (he : b.id = b'.id) : b = b' := by
  have hd := h.hash b b' hb (.inl hb') (by rw [h1, h2, he])
  have hk := h.kind b b' hb hb' hd
  obtain ⟨d, i, k⟩ := b
  obtain ⟨d', i', k'⟩ := b'
  simp only at he hd hk
  subst he hd hk
  rfl

/-- A blob as the program makes them. -/
structure WellMade (C : Codec Id) (b : Blob Id) : Prop where
  ne : b.data ≠ []
  hash : C.hash b.data = b.id
  tree : b.kind = .tree → ∃ t, Serde.OkTree t ∧ b.data = C.encTree t

theorem stored_hash {w : World Id} {ids : Ids Id} (hL : Leftover C ids w) {b : Blob Id}
    (h : Stored w b) : C.hash b.data = b.id := by
  obtain ⟨p, bs, hc, hb⟩ := h
  exact hL.ledger.hashes p bs b hc hb

theorem enc_inj {t t' : Tree Id} (h : Serde.OkTree t) (h' : Serde.OkTree t')
    (he : C.encTree t = C.encTree t') : t = t' := by
  have h1 := C.dec_enc t h
  have h2 := C.dec_enc t' h'
  rw [he, h2] at h1
  cases h1
  rfl

/-- Offering blobs to a run that knows what is stored: what it sends is fresh, and with what is
stored makes up all that was offered. -/
theorem offer_fresh {w : World Id} {ids : Ids Id} (hL : Leftover C ids w) {packed : List Id}
    {L : List (Blob Id)} (hp : ∀ i, i ∈ packed ↔ ∃ b, Stored w b ∧ b.id = i)
    (hW : ∀ b ∈ L, WellMade C b)
    (hU : Unmixed C (fun b => Stored w b ∨ b ∈ L)) :
    Fresh C (Counts w) (L.foldl offer ⟨packed, []⟩).sent ∧
    ∀ b ∈ L, Stored w b ∨ b ∈ (L.foldl offer ⟨packed, []⟩).sent := by
  obtain ⟨new, h1, h2, h3, h4, h5, h6⟩ := offer_all L ⟨packed, []⟩
  simp only [List.nil_append] at h1 h4 h6
  rw [h1]
  have hm : ∀ b ∈ new, b ∈ L := fun b hb => h2.subset hb
  refine ⟨⟨h3, ?_, fun b hb => (hW b (hm b hb)).ne, fun b hb => (hW b (hm b hb)).hash, ?_⟩, ?_⟩
  · intro b hb p cs hc b' hb' he
    exact h4 b hb ((hp _).mpr ⟨b', ⟨p, cs, hc, hb'⟩, he⟩)
  · intro b hb hk
    obtain ⟨t, ht, hd⟩ := (hW b (hm b hb)).tree hk
    refine ⟨t, ht, hd, fun he => ?_⟩
    have := hU.hash b (emptyBlob C) (.inr (hm b hb)) (.inr rfl) ((hW b (hm b hb)).hash.trans he)
    rw [this] at hd
    exact (enc_inj okTree_nil ht hd).symm
  · intro b hb
    rcases h6 b hb with h | h
    · obtain ⟨b', hs, he⟩ := (hp _).mp h
      have := unmixed_eq hU (.inl hs) (.inr hb) (stored_hash hL hs) (hW b hb).hash he
      rw [← this]
      exact .inl hs
    · obtain ⟨b', hn, he⟩ := List.mem_map.mp h
      have := unmixed_eq hU (.inr (hm b' hn)) (.inr hb) (hW b' (hm b' hn)).hash
        (hW b hb).hash he
      rw [← this]
      exact .inr hn

/-- What a command that resumes takes to be stored. -/
theorem packed_iff {w : World Id} {ids : Ids Id} (hH : Sound C w.repo) (hL : Leftover C ids w)
    {src : Source Id} (ho : Opens w.repo src) {known : BMap Id Unit}
    (hk : Index.blobIds src.index = .ok known) {start : Index Id} {here : List Id}
    (hres : resumeFrom w = .ok (start, here)) (i : Id) :
    i ∈ BMap.keys known ++ listedIds start ↔ ∃ b, Stored w b ∧ b.id = i := by
  obtain ⟨_, _, hs, hmem⟩ := (Index.table_iff (fun _ _ => ()) src.index.packs [] BMap.sorted_nil).1 known hk
  rw [List.mem_append]
  have hknown : i ∈ BMap.keys known ↔ ∃ p bs b, LivePack w.repo p bs ∧ b ∈ bs ∧ b.id = i := by
    constructor
    · intro h
      obtain ⟨v, hv⟩ := BMap.mem_keys_iff.mp h
      rcases (hmem i v).mp (BMap.mem_of_get? hv) with h | ⟨p, m, e, h1, h2, h3, _⟩
      · cases h
      · have hl := (opens_mem hH ho p m).mp h1
        obtain ⟨bs, hb, rfl⟩ := hH.present p m hl
        obtain ⟨b, hm, rfl⟩ := List.mem_map.mp h2
        exact ⟨p, bs, b, ⟨hl, hb⟩, hm, h3⟩
    · rintro ⟨p, bs, b, h1, h2, h3⟩
      exact BMap.mem_keys_of_mem (v := ()) ((hmem i ()).mpr (.inr ⟨p, _, Pack.entryOf b,
        (opens_mem hH ho p _).mpr h1.1, List.mem_map.mpr ⟨b, h2, rfl⟩, h3, rfl⟩))
  have hlisted : i ∈ listedIds start ↔ ∃ p bs b, WipPack w p bs ∧ b ∈ bs ∧ b.id = i := by
    rcases resumeFrom_ok hres with ⟨h1, rfl, _⟩ | ⟨h1, _, _⟩
    · constructor
      · intro h; cases h
      · rintro ⟨p, bs, b, ⟨x, hx, _⟩, _⟩
        rw [h1] at hx; cases hx
    · unfold listedIds
      rw [List.mem_flatMap]
      constructor
      · rintro ⟨⟨p, m⟩, he, hi⟩
        obtain ⟨e, h2, h3⟩ := List.mem_map.mp hi
        obtain ⟨bs, hb, rfl⟩ := hL.there _ _ _ h1 he
        obtain ⟨b, hm, rfl⟩ := List.mem_map.mp h2
        exact ⟨p, bs, b, ⟨_, h1, he, hb⟩, hm, h3⟩
      · rintro ⟨p, bs, b, ⟨x, hx, hm, _⟩, h2, h3⟩
        rw [h1] at hx
        cases hx
        refine ⟨_, hm, ?_⟩
        rw [entry_ids]
        exact List.mem_map.mpr ⟨b, h2, h3⟩
  rw [hknown, hlisted]
  constructor
  · rintro (⟨p, bs, b, h1, h2, h3⟩ | ⟨p, bs, b, h1, h2, h3⟩)
    · exact ⟨b, ⟨p, bs, .inl h1, h2⟩, h3⟩
    · exact ⟨b, ⟨p, bs, .inr h1, h2⟩, h3⟩
  · rintro ⟨b, ⟨p, bs, h1 | h1, h2⟩, h3⟩
    · exact .inl ⟨p, bs, b, h1, h2, h3⟩
    · exact .inr ⟨p, bs, b, h1, h2, h3⟩


omit [LinearOrder Id] in
/-- A file whose chunks can all be found. -/
theorem file_holds {R : Repo Id} : ∀ bs : List (Blob Id), (∀ b ∈ bs, Has C R b ∧ b.kind = .chunk) →
    FileHolds C R (bs.map Blob.id) (bs.map Blob.data).flatten := by
  intro bs
  induction bs with
  | nil => exact fun _ => .nil
  | cons b bs ih =>
    intro h
    obtain ⟨h1, h2⟩ := h b (by simp)
    obtain ⟨d, i, k⟩ := b
    simp only at h2
    subst h2
    exact .cons h1 (ih (fun b hb => h b (List.mem_cons_of_mem _ hb)))

/-- The chunk lists of trees that can be read are not too long. -/
theorem holds_bounded {R : Repo Id} {t : Tree Id} {d : Dir Bytes} (h : DirHolds C R t d)
    (ht : ∀ n x, (n, x) ∈ t → Serde.OkContents x.contents) :
    DirRel (fun cs x => FileHolds C R cs x ∧ cs.length < 2 ^ 64) (TreeAt C R) t d := by
  induction h with
  | nil => exact .nil
  | @file n cs md t x d h1 _ ih =>
    exact .file ⟨h1, ht n _ (List.mem_cons_self)⟩ (ih (fun n x hx => ht n x (List.mem_cons_of_mem _ hx)))
  | link _ ih => exact .link (ih (fun n x hx => ht n x (List.mem_cons_of_mem _ hx)))
  | dir h0 _ _ ih1 ih2 =>
    exact .dir h0 (ih1 (fun n x hx => h0.1.contents _ hx))
      (ih2 (fun n x hx => ht n x (List.mem_cons_of_mem _ hx)))

end Backpak
