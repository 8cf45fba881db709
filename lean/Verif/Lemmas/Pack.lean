import Verif.Model.Pack
import Verif.Lemmas.Serde
import Verif.Lemmas.CborLocal
import Mathlib.Data.List.Forall2

/-! Lemmas about the pack readers. -/

namespace Backpak

theorem Stream.take_append {s : Stream} {x rest : Bytes} (h : s.data = x ++ rest) :
    s.take x.length = .ok (x, ⟨rest, s.bad⟩) := by
  unfold Stream.take
  rw [h, if_pos (by simp), List.take_left' rfl, List.drop_left' rfl]

theorem Stream.take_ok {s s' : Stream} {n : Nat} {bs : Bytes} (h : s.take n = .ok (bs, s')) :
    s.data = bs ++ s'.data ∧ bs.length ≤ n := by
  unfold Stream.take at h
  split at h
  · simp only [Except.ok.injEq, Prod.mk.injEq] at h
    obtain ⟨rfl, rfl⟩ := h
    exact ⟨(List.take_append_drop n s.data).symm, by simp⟩
  · split at h
    · simp at h
    · simp only [Except.ok.injEq, Prod.mk.injEq] at h
      obtain ⟨rfl, rfl⟩ := h
      exact ⟨by simp, by omega⟩

theorem Stream.item_ok {α : Type} {dec : Bytes → Option (α × Bytes)} (hd : Local dec)
    {s s' : Stream} {n : Nat} {a : α} {used : Bytes} (h : s.item dec n = .ok (a, used, s')) :
    s.data = used ++ s'.data ∧ (∀ r, dec (used ++ r) = some (a, r)) := by
  unfold Stream.item at h
  split at h
  · simp at h
  · rename_i a' rest hdec
    simp only [Except.ok.injEq, Prod.mk.injEq] at h
    obtain ⟨rfl, rfl, rfl⟩ := h
    obtain ⟨c, _, hc, hr⟩ := hd _ _ _ hdec
    have hlen : (List.take n s.data).length - rest.length = c.length := by rw [hc]; simp
    have hu : s.data.take ((List.take n s.data).length - rest.length) = c := by
      rw [hlen]
      have : c <+: s.data := (List.prefix_append c rest).trans (hc ▸ List.take_prefix n s.data)
      exact (List.prefix_iff_eq_take.mp this).symm
    rw [hu]
    refine ⟨?_, hr⟩
    conv_lhs => rw [← List.take_append_drop ((List.take n s.data).length - rest.length) s.data, hu]

theorem Stream.item_append {α : Type} {dec : Bytes → Option (α × Bytes)}
    {s : Stream} {a : α} {x rest : Bytes} (hd : dec x = some (a, [])) (h : s.data = x ++ rest) :
    s.item dec x.length = .ok (a, x, ⟨rest, s.bad⟩) := by
  unfold Stream.item
  rw [h, List.take_left' rfl, hd]
  simp only [List.length_nil, Nat.sub_zero]
  rw [List.take_left' rfl, List.drop_left' rfl]

namespace Pack

theorem length_magic : magic.length = 9 := by decide

theorem checkMagic_magic (rest : Bytes) : checkMagic (magic ++ rest) = .ok rest := by
  unfold checkMagic
  rw [if_neg (by simp), List.take_left' rfl, List.drop_left' rfl, if_pos rfl]

theorem checkMagic_ok {f rest : Bytes} (h : checkMagic f = .ok rest) : f = magic ++ rest := by
  unfold checkMagic at h
  split at h
  · simp at h
  · split at h
    · rename_i hm
      simp only [Except.ok.injEq] at h
      rw [← h]
      conv_lhs => rw [← List.take_append_drop magic.length f, hm]
    · simp at h

section

variable {Id : Type} [LinearOrder Id] (H : Bytes → Id)

theorem contentOf_cons (b : Blob Id) (bs : List (Blob Id)) :
    contentOf (b :: bs) = b.data ++ contentOf bs := by simp [contentOf]

theorem manifestOf_cons (b : Blob Id) (bs : List (Blob Id)) :
    manifestOf (b :: bs) = entryOf b :: manifestOf bs := by simp [manifestOf]

theorem verifyBlobs_written (bs : List (Blob Id)) (hH : ∀ b ∈ bs, b.id = H b.data) (s : Stream)
    (hs : contentOf bs <+: s.data) : verifyBlobs H (manifestOf bs) s = .ok () := by
  induction bs generalizing s with
  | nil => rfl
  | cons b bs ih =>
    rw [contentOf_cons] at hs
    obtain ⟨r, hr⟩ := hs
    rw [manifestOf_cons]
    unfold verifyBlobs
    have : s.take (entryOf b).length = .ok (b.data, ⟨contentOf bs ++ r, s.bad⟩) :=
      Stream.take_append (by rw [← hr, List.append_assoc])
    rw [this]
    simp only
    rw [if_pos (show (entryOf b).id = H b.data from hH b (by simp))]
    exact ih (fun c hc => hH c (List.mem_cons_of_mem _ hc)) _ (List.prefix_append _ _)

theorem extractLoop_written (bs : List (Blob Id)) (hH : ∀ b ∈ bs, b.id = H b.data) (s : Stream)
    (hs : contentOf bs <+: s.data) (id : Id) (hid : id ∈ bs.map Blob.id) :
    ∃ b ∈ bs, b.id = id ∧ extractLoop H id (manifestOf bs) s = .ok (entryOf b, b.data) := by
  induction bs generalizing s with
  | nil => simp at hid
  | cons b bs ih =>
    rw [contentOf_cons] at hs
    obtain ⟨r, hr⟩ := hs
    have ht : s.take (entryOf b).length = .ok (b.data, ⟨contentOf bs ++ r, s.bad⟩) :=
      Stream.take_append (by rw [← hr, List.append_assoc])
    rw [manifestOf_cons]
    unfold extractLoop
    rw [ht]
    simp only
    by_cases hb : b.id = id
    · refine ⟨b, by simp, hb, ?_⟩
      rw [if_pos (show (entryOf b).id = id from hb), if_pos]
      rw [← hb]; exact hH b (by simp)
    · rw [if_neg (show ¬ (entryOf b).id = id from hb)]
      have hid' : id ∈ bs.map Blob.id := by
        simp only [List.map_cons, List.mem_cons] at hid
        exact hid.resolve_left (fun e => hb e.symm)
      obtain ⟨c, hc, h1, h2⟩ := ih (fun c hc => hH c (List.mem_cons_of_mem _ hc))
        ⟨contentOf bs ++ r, s.bad⟩ (List.prefix_append _ _) hid'
      exact ⟨c, List.mem_cons_of_mem _ hc, h1, h2⟩

theorem loadLoop_written (bs : List (Blob Id)) (hH : ∀ b ∈ bs, b.id = H b.data)
    (hk : ∀ b ∈ bs, b.kind = .chunk) (s : Stream) (hs : contentOf bs <+: s.data) :
    loadLoop H (manifestOf bs) s =
      .ok (bs.map fun b => (b.id, b.data), (bs.map fun b => b.data.length).sum) := by
  induction bs generalizing s with
  | nil => rfl
  | cons b bs ih =>
    rw [contentOf_cons] at hs
    obtain ⟨r, hr⟩ := hs
    have ht : s.take (entryOf b).length = .ok (b.data, ⟨contentOf bs ++ r, s.bad⟩) :=
      Stream.take_append (by rw [← hr, List.append_assoc])
    rw [manifestOf_cons]
    unfold loadLoop
    have hkb : (entryOf b).kind = .chunk := hk b (by simp)
    rw [if_neg (by simp [hkb]), ht]
    simp only
    rw [if_pos (show (entryOf b).id = H b.data from hH b (by simp)),
      ih (fun c hc => hH c (List.mem_cons_of_mem _ hc))
        (fun c hc => hk c (List.mem_cons_of_mem _ hc)) _ (List.prefix_append _ _)]
    simp [entryOf]

/-- The blob of a tree (`src/ui/backup.rs:520-535`, `src/tree.rs:335-340`). -/
def treeBlob (encTree : Tree Id → Bytes) (t : Tree Id) : Blob Id :=
  ⟨encTree t, H (encTree t), .tree⟩

theorem appendLoop_written {encTree : Tree Id → Bytes} {decTree : Bytes → Option (Tree Id × Bytes)}
    (ts : List (Tree Id)) (hdec : ∀ t ∈ ts, decTree (encTree t) = some (t, [])) (s : Stream)
    (hs : contentOf (ts.map (treeBlob H encTree)) <+: s.data) (forest : BMap Id (Tree Id))
    (hsort : BMap.Sorted forest) :
    ∃ forest', appendLoop H decTree (manifestOf (ts.map (treeBlob H encTree))) s forest
        = .ok forest' ∧ BMap.Sorted forest' ∧
      ∀ id, forest'.get? id = (forest.get? id).or (ts.find? (fun t => H (encTree t) = id)) := by
  induction ts generalizing s forest with
  | nil => exact ⟨forest, rfl, hsort, fun id => by cases h : forest.get? id <;> simp⟩
  | cons t ts ih =>
    rw [List.map_cons, contentOf_cons] at hs
    obtain ⟨r, hr⟩ := hs
    have hr' : s.data = (encTree t) ++ (contentOf (ts.map (treeBlob H encTree)) ++ r) := by
      rw [← hr, List.append_assoc]; rfl
    have hrest := fun forest hsort => ih (fun u hu => hdec u (List.mem_cons_of_mem _ hu))
      ⟨contentOf (ts.map (treeBlob H encTree)) ++ r, s.bad⟩ (List.prefix_append _ _) forest hsort
    rw [List.map_cons, manifestOf_cons]
    unfold appendLoop
    by_cases hskip : (forest.get? (H (encTree t))).isSome
    · have ht : s.take (entryOf (treeBlob H encTree t)).length
          = .ok (encTree t, ⟨contentOf (ts.map (treeBlob H encTree)) ++ r, s.bad⟩) :=
        Stream.take_append hr'
      rw [if_pos (show _ ∨ (forest.get? (entryOf (treeBlob H encTree t)).id).isSome from Or.inr hskip), ht]
      simp only
      rw [if_pos (show (encTree t).length = (entryOf (treeBlob H encTree t)).length from rfl)]
      obtain ⟨f', h1, hs', h2⟩ := hrest forest hsort
      refine ⟨f', h1, hs', fun id => ?_⟩
      rw [h2]
      by_cases hid : H (encTree t) = id
      · subst hid
        obtain ⟨v, hv⟩ := Option.isSome_iff_exists.mp hskip
        simp [hv]
      · simp [List.find?_cons, hid]
    · have ht : s.item decTree (entryOf (treeBlob H encTree t)).length
          = .ok (t, encTree t, ⟨contentOf (ts.map (treeBlob H encTree)) ++ r, s.bad⟩) :=
        Stream.item_append (hdec t (by simp)) hr'
      rw [if_neg (by simpa [entryOf, treeBlob] using hskip), ht]
      simp only
      rw [if_pos (show (entryOf (treeBlob H encTree t)).id = H (encTree t) from rfl)]
      obtain ⟨f', h1, hs', h2⟩ := hrest (BMap.insert (entryOf (treeBlob H encTree t)).id t forest)
        (BMap.sorted_insert hsort _ _)
      refine ⟨f', h1, hs', fun id => ?_⟩
      rw [h2, BMap.get?_insert hsort]
      have hid' : (entryOf (treeBlob H encTree t)).id = H (encTree t) := rfl
      rw [hid']
      by_cases hid : H (encTree t) = id
      · subst hid
        have hn : forest.get? (H (encTree t)) = none := by simpa using hskip
        simp [hn]
      · simp [List.find?_cons, hid]

/-! Soundness on arbitrary streams. -/

theorem verifyBlobs_sound (m : Manifest Id) (s : Stream) (h : verifyBlobs H m s = .ok ()) :
    ∃ ps : List Bytes, ps.flatten <+: s.data ∧
      List.Forall₂ (fun e p => H p = e.id ∧ p.length ≤ e.length) m ps := by
  induction m generalizing s with
  | nil => exact ⟨[], by simp, .nil⟩
  | cons e m ih =>
    unfold verifyBlobs at h
    split at h
    · simp at h
    · rename_i bs s' ht
      split at h
      · rename_i he
        obtain ⟨ps, h1, h2⟩ := ih s' h
        obtain ⟨hd, hl⟩ := Stream.take_ok ht
        refine ⟨bs :: ps, ?_, .cons ⟨he.symm, hl⟩ h2⟩
        rw [hd, List.flatten_cons]
        exact (List.prefix_append_right_inj bs).mpr h1
      · simp at h

theorem extractLoop_sound (id : Id) (m : Manifest Id) (s : Stream) (e : Entry Id) (bs : Bytes)
    (h : extractLoop H id m s = .ok (e, bs)) : H bs = id ∧ e ∈ m ∧ e.id = id ∧ bs.length ≤ e.length := by
  induction m generalizing s with
  | nil => simp [extractLoop] at h
  | cons e' m ih =>
    unfold extractLoop at h
    split at h
    · simp at h
    · rename_i bs' s' ht
      split at h
      · rename_i hid
        split at h
        · rename_i hh
          simp only [Except.ok.injEq, Prod.mk.injEq] at h
          obtain ⟨rfl, rfl⟩ := h
          exact ⟨hh.symm, by simp, hid, (Stream.take_ok ht).2⟩
        · simp at h
      · obtain ⟨h1, h2, h3, h4⟩ := ih s' h
        exact ⟨h1, List.mem_cons_of_mem _ h2, h3, h4⟩

theorem loadLoop_sound (m : Manifest Id) (s : Stream) (l : List (Id × Bytes)) (n : Nat)
    (h : loadLoop H m s = .ok (l, n)) :
    (∀ p ∈ l, H p.2 = p.1) ∧ l.map Prod.fst = (m.filter (fun e => e.kind = .chunk)).map Entry.id ∧
      n = ((m.filter (fun e => e.kind = .chunk)).map Entry.length).sum ∧
      (l.map fun p => p.2.length).sum ≤ n := by
  induction m generalizing s l n with
  | nil =>
    simp only [loadLoop, Except.ok.injEq, Prod.mk.injEq] at h
    obtain ⟨rfl, rfl⟩ := h
    simp
  | cons e m ih =>
    unfold loadLoop at h
    split at h
    · rename_i hk
      obtain ⟨h1, h2, h3, h4⟩ := ih s l n h
      refine ⟨h1, ?_, ?_, h4⟩
      · rw [h2]; simp [hk]
      · rw [h3]; simp [hk]
    · rename_i hk
      split at h
      · simp at h
      · rename_i bs s' ht
        split at h
        · rename_i hh
          split at h
          · simp at h
          · rename_i l' n' hl
            simp only [Except.ok.injEq, Prod.mk.injEq] at h
            obtain ⟨rfl, rfl⟩ := h
            obtain ⟨h1, h2, h3, h4⟩ := ih s' l' n' hl
            have := (Stream.take_ok ht).2
            refine ⟨?_, ?_, ?_, ?_⟩
            · intro p hp
              rcases List.mem_cons.mp hp with rfl | hp
              · exact hh.symm
              · exact h1 p hp
            · simp only [ne_eq, Decidable.not_not] at hk
              simp [hk, h2]
            · simp only [ne_eq, Decidable.not_not] at hk
              simp [hk, h3]
            · simp; omega
        · simp at h

theorem appendLoop_sound {decTree : Bytes → Option (Tree Id × Bytes)} (hd : Local decTree)
    (m : Manifest Id) (s : Stream) (forest forest' : BMap Id (Tree Id))
    (hsort : BMap.Sorted forest) (h : appendLoop H decTree m s forest = .ok forest') (id : Id) (t : Tree Id)
    (hg : forest'.get? id = some t) :
    forest.get? id = some t ∨
      ∃ bs, H bs = id ∧ decTree bs = some (t, []) ∧ ∃ e ∈ m, e.id = id ∧ e.kind = .tree := by
  induction m generalizing s forest with
  | nil =>
    simp only [appendLoop, Except.ok.injEq] at h
    subst h
    exact .inl hg
  | cons e m ih =>
    unfold appendLoop at h
    split at h
    · split at h
      · simp at h
      · split at h
        · rcases ih _ _ hsort h with h1 | ⟨bs, h1, h2, e', he', h3⟩
          · exact .inl h1
          · exact .inr ⟨bs, h1, h2, e', List.mem_cons_of_mem _ he', h3⟩
        · simp at h
    · rename_i hk
      simp only [ne_eq, not_or, Decidable.not_not] at hk
      split at h
      · simp at h
      · rename_i t' used s' ht
        split at h
        · rename_i hh
          rcases ih _ _ (BMap.sorted_insert hsort _ _) h with h1 | ⟨bs, h1, h2, e', he', h3⟩
          · rw [BMap.get?_insert hsort] at h1
            split at h1
            · rename_i hid
              simp only [Option.some.injEq] at h1
              subst h1
              refine .inr ⟨used, by rw [← hh, hid], ?_, e, by simp, hid, hk.1⟩
              have := (Stream.item_ok hd ht).2 []
              rwa [List.append_nil] at this
            · exact .inl h1
          · exact .inr ⟨bs, h1, h2, e', List.mem_cons_of_mem _ he', h3⟩
        · simp at h

end

theorem ofDigits_be (N : Nat) (h : N < 2 ^ 32) :
    ofDigits 256 ((Cbor.be 4 N).map UInt8.toNat) = N := by
  rw [Cbor.map_toNat_be]
  exact ofDigits_toDigits 4 N (by omega)

theorem manifestFromReader_written (Z : Zstd) (H : Bytes → ObjectId) {bs : List (Blob ObjectId)}
    {f : Bytes} (hw : WritesFile Z bs f) (hn : bs.length < 2 ^ 64)
    (hu : ∀ b ∈ bs, b.data.length < 2 ^ 32) :
    manifestFromReader Z H f
      = .ok (manifestOf bs, H (Serde.encManifest (manifestOf bs))) := by
  obtain ⟨zb, zm, _, hzm, hlen, rfl⟩ := hw
  have hok : Serde.OkManifest (manifestOf bs) := by
    refine ⟨by simpa [manifestOf] using hn, ?_⟩
    intro e he
    obtain ⟨b, hb, rfl⟩ := List.mem_map.mp he
    exact hu b hb
  have hdec : Serde.decManifest (Serde.encManifest (manifestOf bs)) = some (manifestOf bs, []) := by
    have := Serde.read_enc Serde.asManifest _ _ [] (Serde.ok_manifest 253 _ hok)
      (Serde.asManifest_manifest _ hok)
    rwa [List.append_nil] at this
  have hfl : (file zb zm).length = magic.length + zb.length + zm.length + 4 := by
    simp [file, Cbor.length_be]; omega
  unfold manifestFromReader
  rw [if_neg (by omega)]
  have h1 : (file zb zm).drop ((file zb zm).length - 4) = Cbor.be 4 zm.length := by
    have : (file zb zm).length - 4 = (magic ++ zb ++ zm).length := by
      rw [hfl]; simp only [List.length_append]; omega
    rw [this]
    unfold file
    exact List.drop_left' rfl
  rw [h1, ofDigits_be _ hlen]
  simp only
  rw [if_neg (by omega)]
  have h2 : (file zb zm).drop ((file zb zm).length - (zm.length + 4)) = zm ++ Cbor.be 4 zm.length := by
    have : (file zb zm).length - (zm.length + 4) = (magic ++ zb).length := by
      rw [hfl]; simp only [List.length_append]; omega
    rw [this]
    unfold file
    rw [List.append_assoc]
    exact List.drop_left' rfl
  rw [h2, List.take_left' rfl, Z.stream_whole _ _ hzm]
  simp only
  rw [Stream.item_append (rest := []) hdec (by simp)]

end Pack
end Backpak
