import Verif.Lemmas.Backup
import Verif.Spec.Listing
import Verif.Spec.Near

/-!
# The chunks a walk offers are chunks of the files it keeps
-/

namespace Backpak

open Spec

variable {Id : Type} [LinearOrder Id] {C : Codec Id} {cut : Bytes → Nat} {filter : Path → Bool}
  {F : Forest Id}

theorem walk_chunks (d : Dir Bytes) : ∀ (pathOf : Name → Path) (pt : Option (Tree Id)) (t t' : Tree Id)
      (l l' : List (Blob Id)),
      walkFs (noteVisitor C cut) filter F pathOf pt d t l = .ok (t', l') →
      ∀ b ∈ l', b ∈ l ∨ b.kind = .tree ∨
        ∃ x, HasFile x (keep filter pathOf d) ∧ b ∈ Chunk.chunkFile C.hash cut x := by
  induction d with
  | nil =>
    intro pathOf pt t t' l l' h b hb
    cases h
    exact .inl hb
  | leaf n md lf rest ih =>
    intro pathOf pt t t' l l' h b hb
    unfold walkFs at h
    by_cases hfil : filter (pathOf n) = false
    · rw [if_pos hfil] at h
      rw [keep, if_pos (.inl hfil)]
      exact ih _ _ _ _ _ _ h b hb
    · rw [if_neg hfil] at h
      simp only at h
      by_cases hlf : lf = .other
      · subst hlf
        rw [keep, if_pos (.inr rfl)]
        exact ih _ _ _ _ _ _ h b hb
      · rw [keep, if_neg (by simp [hfil, hlf])]
        have up : ∀ l : List (Blob Id), (b ∈ l ∨ b.kind = .tree ∨
              ∃ x, HasFile x (keep filter pathOf rest) ∧ b ∈ Chunk.chunkFile C.hash cut x) →
            b ∈ l ∨ b.kind = .tree ∨
              ∃ x, HasFile x (.leaf n md lf (keep filter pathOf rest)) ∧ b ∈ Chunk.chunkFile C.hash cut x := by
          rintro l (h | h | ⟨x, h1, h2⟩)
          · exact .inl h
          · exact .inr (.inl h)
          · exact .inr (.inr ⟨x, .inr h1, h2⟩)
        cases lf with
        | other => exact absurd rfl hlf
        | link tgt =>
          simp only at h
          split at h
          · cases h
          · rename_i i' s' hv
            obtain ⟨_, rfl, rfl⟩ := visit_link hv
            exact up _ (ih _ _ _ _ _ _ h b hb)
        | file x =>
          simp only at h
          split at h
          · cases h
          · split at h
            · cases h
            · rename_i ch hch _ i' s' hv
              rcases up _ (ih _ _ _ _ _ _ h b hb) with hb | hb
              · cases ch with
                | true =>
                  obtain ⟨_, hi, hs⟩ := visit_changed hv
                  rw [hs] at hb
                  rcases List.mem_append.mp hb with hb | hb
                  · exact .inl hb
                  · exact .inr (.inr ⟨x, .inl rfl, hb⟩)
                | false =>
                  obtain ⟨_, p, hp, hi, hs⟩ := visit_unchanged hv
                  rw [hs] at hb
                  exact .inl hb
              · exact .inr hb
  | dir n md sub rest ihs ih =>
    intro pathOf pt t t' l l' h b hb
    unfold walkFs at h
    by_cases hfil : filter (pathOf n) = false
    · rw [if_pos hfil] at h
      rw [keep, if_pos hfil]
      exact ih _ _ _ _ _ _ h b hb
    · rw [if_neg hfil] at h
      rw [keep, if_neg hfil]
      simp only [prevSub_eq, note_init] at h
      split at h
      · cases h
      · rename_i j s1 hs
        split at h
        · cases h
        · rename_i id s2 hf
          split at h
          · cases h
          · rename_i i' s' hv
            obtain ⟨_, rfl, rfl⟩ := visit_dir hv
            obtain ⟨hid, hfin⟩ := finalize_ok hf
            rcases ih _ _ _ _ _ _ h b hb with hb | hb | ⟨x, h1, h2⟩
            · have : b ∈ s1 ∨ b.kind = .tree := by
                rcases hfin with ⟨_, rfl⟩ | rfl
                · exact .inl hb
                · rcases List.mem_append.mp hb with hb | hb
                  · exact .inl hb
                  · rw [List.mem_singleton.mp hb]
                    exact .inr rfl
              rcases this with hb | hb
              · rcases ihs _ _ _ _ _ _ hs b hb with hb | hb | ⟨x, h1, h2⟩
                · exact .inl hb
                · exact .inr (.inl hb)
                · exact .inr (.inr ⟨x, .inl h1, h2⟩)
              · exact .inr (.inl hb)
            · exact .inr (.inl hb)
            · exact .inr (.inr ⟨x, .inr h1, h2⟩)

theorem blobs_chunks {pathOf : Name → Path} {prevRoot : Option Id} {d : Dir Bytes} {root : Id}
    {L : List (Blob Id)} (h : backupBlobs C cut filter F pathOf prevRoot d = .ok (root, L)) :
    ∀ b ∈ L, b.kind = .tree ∨
      ∃ x, HasFile x (keep filter pathOf d) ∧ b ∈ Chunk.chunkFile C.hash cut x := by
  unfold backupBlobs walkTop at h
  split at h
  · cases h
  · rename_i i s' hw
    obtain ⟨_, hfin⟩ := finalize_ok h
    intro b hb
    have : b ∈ s' ∨ b.kind = .tree := by
      rcases hfin with ⟨_, rfl⟩ | rfl
      · exact .inl hb
      · rcases List.mem_append.mp hb with hb | hb
        · exact .inl hb
        · rw [List.mem_singleton.mp hb]
          exact .inr rfl
    rcases this with hb | hb
    · rcases walk_chunks d _ _ _ _ _ _ hw b hb with hb | hb
      · rw [note_init] at *
        cases hb
      · exact hb
    · exact .inl hb

/-- What was read, and what was known before, makes up all the files. -/
theorem reread_files {F : Forest Id} {L : List (Blob Id)} {P : Bytes → Prop} (d : Dir Bytes) :
    ∀ (pt : Option (Tree Id)), Reread (Chunk.chunkFile C.hash cut) F L pt d →
      Reuse (fun _ x => P x) F pt d →
      ∀ x, HasFile x d → P x ∨ ∀ b ∈ Chunk.chunkFile C.hash cut x, b ∈ L := by
  induction d with
  | nil => intro _ _ _ x hx; cases hx
  | leaf n md l r ih =>
    intro pt h1 h2 x hx
    rcases hx with rfl | hx
    · by_cases h : ∃ cs m, prevNode pt n = some (⟨.file cs, m⟩ : Node Id) ∧ Unmodified md m
      · obtain ⟨cs, m, h, h'⟩ := h
        exact .inl (h2.1 x cs m rfl h h')
      · exact .inr (h1.1 x rfl (fun cs m hp hu => h ⟨cs, m, hp, hu⟩))
    · exact ih _ h1.2 h2.2 x hx
  | dir n md s r ihs ih =>
    intro pt h1 h2 x hx
    rcases hx with hx | hx
    · exact ihs _ h1.1 h2.1 x hx
    · exact ih _ h1.2 h2.2 x hx

end Backpak
