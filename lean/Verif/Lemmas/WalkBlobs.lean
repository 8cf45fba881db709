import Verif.Lemmas.Parent

/-!
# The blobs a backup's walk offers
-/

namespace Backpak

open Spec

variable {Id : Type} [LinearOrder Id] {C : Codec Id} {cut : Bytes → Nat} {filter : Path → Bool}
  {F : Forest Id}

/-- A chunk of some file, or a tree that is not empty. -/
inductive MadeBlob (C : Codec Id) (cut : Bytes → Nat) : Blob Id → Prop
  | chunk {x b} : b ∈ Chunk.chunkFile C.hash cut x → MadeBlob C cut b
  | tree {t} : Serde.OkTree t → t ≠ [] → MadeBlob C cut ⟨C.encTree t, C.hash (C.encTree t), .tree⟩

theorem MadeBlob.ne (hc : Chunk.Contract cut) {b : Blob Id} (h : MadeBlob C cut b) : b.data ≠ [] := by
  cases h with
  | chunk h => exact (C10.chunk_bounds _ cut hc _ b h).1
  | tree _ _ => exact C.enc_ne _

theorem MadeBlob.hash (hc : Chunk.Contract cut) {b : Blob Id} (h : MadeBlob C cut b) :
    C.hash b.data = b.id := by
  cases h with
  | chunk h => exact (C10.chunk_bounds _ cut hc _ b h).2.2.1.symm
  | tree _ _ => rfl

theorem MadeBlob.tree_of (hc : Chunk.Contract cut) {b : Blob Id} (h : MadeBlob C cut b)
    (hk : b.kind = .tree) : ∃ t, Serde.OkTree t ∧ t ≠ [] ∧ b.data = C.encTree t := by
  cases h with
  | chunk h => rw [(C10.chunk_bounds _ cut hc _ b h).2.2.2] at hk; cases hk
  | tree h1 h2 => exact ⟨_, h1, h2, rfl⟩

theorem walk_blobs (hc : Chunk.Contract cut)
    (d : Dir Bytes) : ∀ (pathOf : Name → Path) (pt : Option (Tree Id)) (t t' : Tree Id)
      (l l' : List (Blob Id)),
      Fits (keep filter pathOf d) → SubsSorted d →
      Reuse (fun cs _ => True ∧ cs.length < 2 ^ 64) F pt (keep filter pathOf d) →
      walkFs (noteVisitor C cut) filter F pathOf pt d t l = .ok (t', l') →
      ∀ b ∈ l', b ∈ l ∨ MadeBlob C cut b := by
  induction d with
  | nil =>
    intro pathOf pt t t' l l' _ _ _ h b hb
    cases h
    exact .inl hb
  | leaf n md lf rest ih =>
    intro pathOf pt t t' l l' hfit hsub hre h b hb
    unfold walkFs at h
    by_cases hfil : filter (pathOf n) = false
    · rw [if_pos hfil] at h
      rw [keep, if_pos (.inl hfil)] at hfit hre
      exact ih _ _ _ _ _ _ hfit hsub hre h b hb
    · rw [if_neg hfil] at h
      simp only at h
      by_cases hlf : lf = .other
      · subst hlf
        rw [keep, if_pos (.inr rfl)] at hfit hre
        exact ih _ _ _ _ _ _ hfit hsub hre h b hb
      · rw [keep, if_neg (by simp [hfil, hlf])] at hfit hre
        obtain ⟨hn, hm, hl, hfit⟩ := hfit
        cases lf with
        | other => exact absurd rfl hlf
        | link tgt =>
          simp only at h
          split at h
          · cases h
          · rename_i i' s' hv
            obtain ⟨_, rfl, rfl⟩ := visit_link hv
            exact ih _ _ _ _ _ _ hfit hsub hre.2 h b hb
        | file x =>
          simp only at h
          split at h
          · cases h
          · split at h
            · cases h
            · rename_i ch hch _ i' s' hv
              rcases ih _ _ _ _ _ _ hfit hsub hre.2 h b hb with hb | hb
              · cases ch with
                | true =>
                  obtain ⟨_, hi, hs⟩ := visit_changed hv
                  rw [hs] at hb
                  rcases List.mem_append.mp hb with hb | hb
                  · exact .inl hb
                  · exact .inr (.chunk hb)
                | false =>
                  obtain ⟨_, p, hp, hi, hs⟩ := visit_unchanged hv
                  rw [hs] at hb
                  exact .inl hb
              · exact .inr hb
  | dir n md sub rest ihs ih =>
    intro pathOf pt t t' l l' hfit hsub hre h b hb
    unfold walkFs at h
    by_cases hfil : filter (pathOf n) = false
    · rw [if_pos hfil] at h
      rw [keep, if_pos hfil] at hfit hre
      exact ih _ _ _ _ _ _ hfit hsub.2 hre h b hb
    · rw [if_neg hfil] at h
      rw [keep, if_neg hfil] at hfit hre
      obtain ⟨hn, hm, hcount, hfs, hfit⟩ := hfit
      simp only [prevSub_eq, note_init] at h
      split at h
      · cases h
      · rename_i j s1 hs
        split at h
        · cases h
        · rename_i id s2 hf
          split at h
          · cases h
          · rename_i i' s' hv
            obtain ⟨_, rfl, rfl⟩ := visit_dir hv
            obtain ⟨hid, hfin⟩ := finalize_ok hf
            obtain ⟨g1, g2, _⟩ := walk_rel (PF := fun _ _ => True) (PT := fun _ _ => True) (L := s1) hc
              (fun _ _ => trivial) (fun _ _ _ => trivial) sub _ _ _ _ _ _ _ hfs (Sorted.subs hsub.1)
              hre.1 growing_nil .nil (fun _ h => h) hs
            have hlen : j.length < 2 ^ 64 := by
              simp only [List.length_nil, Nat.zero_add] at g2
              omega
            rcases ih _ _ _ _ _ _ hfit hsub.2 hre.2 h b hb with hb | hb
            · have hsub1 : b ∈ s1 → b ∈ l ∨ MadeBlob C cut b :=
                ihs _ _ _ _ _ _ hfs (Sorted.subs hsub.1) hre.1 hs b
              rcases hfin with ⟨_, rfl⟩ | rfl
              · exact hsub1 hb
              · rcases List.mem_append.mp hb with hb | hb
                · exact hsub1 hb
                · simp only [List.mem_singleton] at hb
                  subst hb
                  by_cases hj : j = []
                  · subst hj
                    simp only [noteVisitor, sendVisitor] at hf
                    simp at hf
                  · exact .inr (.tree (g1.ok hlen) hj)
            · exact .inr hb

/-- The top of the walk. -/
theorem backup_blobs (hc : Chunk.Contract cut) {d : Dir Bytes} {pathOf : Name → Path}
    {prevRoot : Option Id} {root : Id} {L : List (Blob Id)}
    (hfit : Fits (keep filter pathOf d)) (hlen : (keep filter pathOf d).names.length < 2 ^ 64)
    (hsub : SubsSorted d)
    (hre : Reuse (fun cs _ => True ∧ cs.length < 2 ^ 64) F (prevRoot.bind (fun id => F.get? id))
      (keep filter pathOf d))
    (h : backupBlobs C cut filter F pathOf prevRoot d = .ok (root, L)) :
    ∀ b ∈ L, MadeBlob C cut b := by
  intro b hb
  unfold backupBlobs walkTop at h
  split at h
  · cases h
  · rename_i i s' hw
    obtain ⟨g1, g2, _⟩ := walk_rel (PF := fun _ _ => True) (PT := fun _ _ => True) (L := s') hc
      (fun _ _ => trivial) (fun _ _ _ => trivial) d _ _ _ _ _ _ _ hfit hsub
      hre growing_nil .nil (fun _ h => h) hw
    have hs : b ∈ s' → MadeBlob C cut b := by
      intro hb
      rcases walk_blobs hc d _ _ _ _ _ _ hfit hsub hre hw b hb with hb | hb
      · cases hb
      · exact hb
    obtain ⟨hid, hfin⟩ := finalize_ok h
    rcases hfin with ⟨_, rfl⟩ | rfl
    · exact hs hb
    · rcases List.mem_append.mp hb with hb | hb
      · exact hs hb
      · simp only [List.mem_singleton] at hb
        subst hb
        by_cases hj : i = []
        · subst hj
          simp only [noteVisitor, sendVisitor] at h
          simp at h
        · refine .tree (g1.ok ?_) hj
          simp only [List.length_nil, Nat.zero_add] at g2
          omega

end Backpak
