import Verif.Lemmas.Backup

/-!
# Backing up what is stored already

What a walk offers is needed by the tree it gives; so if that tree is stored, nothing is sent. And
a walk over what the parent holds gives the parent's tree.
-/

namespace Backpak.Again

open Spec

variable {Id : Type} [LinearOrder Id] {C : Codec Id} {cut : Bytes → Nat} {filter : Path → Bool}
  {F : Forest Id}

/-- A blob is needed by the tree with an ID, all trees on the way being among the blobs `L`. -/
inductive Needed (C : Codec Id) (L : List (Blob Id)) : Id → Blob Id → Prop
  | self {t} : Serde.OkTree t → t ≠ [] → ⟨C.encTree t, C.hash (C.encTree t), .tree⟩ ∈ L →
      Needed C L (C.hash (C.encTree t)) ⟨C.encTree t, C.hash (C.encTree t), .tree⟩
  | chunk {t n cs md b} : Serde.OkTree t → ⟨C.encTree t, C.hash (C.encTree t), .tree⟩ ∈ L →
      (n, ⟨.file cs, md⟩) ∈ t → b.id ∈ cs → Needed C L (C.hash (C.encTree t)) b
  | sub {t n id md b} : Serde.OkTree t → ⟨C.encTree t, C.hash (C.encTree t), .tree⟩ ∈ L →
      (n, ⟨.dir id, md⟩) ∈ t → Needed C L id b → Needed C L (C.hash (C.encTree t)) b

/-- A blob is needed by a node of a tree. -/
def NeededIn (C : Codec Id) (L : List (Blob Id)) (t : Tree Id) (b : Blob Id) : Prop :=
  (∃ n cs md, (n, (⟨.file cs, md⟩ : Node Id)) ∈ t ∧ b.id ∈ cs) ∨
  ∃ n id md, (n, (⟨.dir id, md⟩ : Node Id)) ∈ t ∧ Needed C L id b

theorem NeededIn.insert {L : List (Blob Id)} {t : Tree Id} {b : Blob Id} (h : NeededIn C L t b)
    (hs : BMap.Sorted t) {n : Name} (x : Node Id) (hn : BMap.get? t n = none) :
    NeededIn C L (BMap.insert n x t) b := by
  have key : ∀ m y, (m, y) ∈ t → (m, y) ∈ BMap.insert n x t := by
    intro m y hm
    refine (BMap.mem_insert_iff hs).mpr (.inr ⟨?_, hm⟩)
    rintro rfl
    exact BMap.get?_eq_none_iff.mp hn (BMap.mem_keys_of_mem hm)
  rcases h with ⟨m, cs, md, h1, h2⟩ | ⟨m, id, md, h1, h2⟩
  · exact .inl ⟨m, cs, md, key _ _ h1, h2⟩
  · exact .inr ⟨m, id, md, key _ _ h1, h2⟩

theorem NeededIn.up {L : List (Blob Id)} {t : Tree Id} {b : Blob Id} (h : NeededIn C L t b)
    (hok : Serde.OkTree t) (hL : ⟨C.encTree t, C.hash (C.encTree t), .tree⟩ ∈ L) :
    Needed C L (C.hash (C.encTree t)) b := by
  rcases h with ⟨n, cs, md, h1, h2⟩ | ⟨n, id, md, h1, h2⟩
  · exact .chunk hok hL h1 h2
  · exact .sub hok hL h1 h2

theorem NeededIn.ne {L : List (Blob Id)} {t : Tree Id} {b : Blob Id} (h : NeededIn C L t b) : t ≠ [] := by
  rintro rfl
  rcases h with ⟨n, cs, md, h1, _⟩ | ⟨n, id, md, h1, _⟩ <;> cases h1

/-- Every blob a walk offers is needed by the tree it builds. -/
theorem walk_needed {L : List (Blob Id)} (hc : Chunk.Contract cut)
    (d : Dir Bytes) : ∀ (pathOf : Name → Path) (pt : Option (Tree Id)) (t t' : Tree Id)
      (l l' : List (Blob Id)),
      Fits (keep filter pathOf d) → SubsSorted d →
      Reuse (fun cs _ => True ∧ cs.length < 2 ^ 64) F pt (keep filter pathOf d) →
      Growing t → (∀ b ∈ l', b ∈ L) →
      walkFs (noteVisitor C cut) filter F pathOf pt d t l = .ok (t', l') →
      (∀ b, NeededIn C L t b → NeededIn C L t' b) ∧ ∀ b ∈ l', b ∈ l ∨ NeededIn C L t' b := by
  induction d with
  | nil =>
    intro pathOf pt t t' l l' _ _ _ _ _ h
    cases h
    exact ⟨fun _ h => h, fun b hb => .inl hb⟩
  | leaf n md lf rest ih =>
    intro pathOf pt t t' l l' hfit hsub hre hg hL h
    unfold walkFs at h
    by_cases hfil : filter (pathOf n) = false
    · rw [if_pos hfil] at h
      rw [keep, if_pos (.inl hfil)] at hfit hre
      exact ih _ _ _ _ _ _ hfit hsub hre hg hL h
    · rw [if_neg hfil] at h
      simp only at h
      by_cases hlf : lf = .other
      · subst hlf
        rw [keep, if_pos (.inr rfl)] at hfit hre
        exact ih _ _ _ _ _ _ hfit hsub hre hg hL h
      · rw [keep, if_neg (by simp [hfil, hlf])] at hfit hre
        obtain ⟨hn, hm, hl, hfit⟩ := hfit
        cases lf with
        | other => exact absurd rfl hlf
        | link tgt =>
          simp only at h
          split at h
          · cases h
          · rename_i i' s' hv
            obtain ⟨hnew, rfl, rfl⟩ := visit_link hv
            obtain ⟨g1, g2⟩ := ih _ _ _ _ _ _ hfit hsub hre.2 (hg.insert (x := ⟨.link tgt, md⟩) hn hl hm) hL h
            exact ⟨fun b hb => g1 b (hb.insert hg.sorted _ hnew), g2⟩
        | file x =>
          simp only at h
          split at h
          · cases h
          · split at h
            · cases h
            · rename_i ch hch _ i' s' hv
              cases ch with
              | true =>
                obtain ⟨hnew, rfl, rfl⟩ := visit_changed hv
                have hlen : ((Chunk.chunkFile C.hash cut x).map Blob.id).length < 2 ^ 64 := by
                  rw [List.length_map]
                  exact lt_of_le_of_lt (chunks_few hc _ x) hl
                obtain ⟨g1, g2⟩ := ih _ _ _ _ _ _ hfit hsub hre.2
                  (hg.insert (x := ⟨.file ((Chunk.chunkFile C.hash cut x).map Blob.id), md⟩) hn hlen hm) hL h
                refine ⟨fun b hb => g1 b (hb.insert hg.sorted _ hnew), fun b hb => ?_⟩
                rcases g2 b hb with hb | hb
                · rcases List.mem_append.mp hb with hb | hb
                  · exact .inl hb
                  · refine .inr (g1 b (.inl ⟨n, _, md, ?_, List.mem_map_of_mem hb⟩))
                    exact (BMap.mem_insert_iff hg.sorted).mpr (.inl ⟨rfl, rfl⟩)
                · exact .inr hb
              | false =>
                obtain ⟨hnew, p, hp, rfl, rfl⟩ := visit_unchanged hv
                obtain ⟨cs, m, hp', hun⟩ := fileChanged_false hch
                obtain ⟨_, hlen⟩ := hre.1 x cs m rfl hp' hun
                rw [hp] at hp'
                cases hp'
                obtain ⟨g1, g2⟩ := ih _ _ _ _ _ _ hfit hsub hre.2 (hg.insert (x := ⟨.file cs, md⟩) hn hlen hm) hL h
                exact ⟨fun b hb => g1 b (hb.insert hg.sorted _ hnew), g2⟩
  | dir n md sub rest ihs ih =>
    intro pathOf pt t t' l l' hfit hsub hre hg hL h
    unfold walkFs at h
    by_cases hfil : filter (pathOf n) = false
    · rw [if_pos hfil] at h
      rw [keep, if_pos hfil] at hfit hre
      exact ih _ _ _ _ _ _ hfit hsub.2 hre hg hL h
    · rw [if_neg hfil] at h
      rw [keep, if_neg hfil] at hfit hre
      obtain ⟨hn, hm, hcount, hfs, hfit⟩ := hfit
      simp only [prevSub_eq, note_init] at h
      split at h
      · cases h
      · rename_i j s1 hs
        split at h
        · cases h
        · rename_i id s2 hf
          split at h
          · cases h
          · rename_i i' s' hv
            obtain ⟨hnew, rfl, rfl⟩ := visit_dir hv
            obtain ⟨hid, hfin⟩ := finalize_ok hf
            obtain ⟨gj, g2, _⟩ := walk_rel (PF := fun _ _ => True) (PT := fun _ _ => True) (L := s1) hc
              (fun _ _ => trivial) (fun _ _ _ => trivial) sub _ _ _ _ _ _ _ hfs (Sorted.subs hsub.1)
              hre.1 growing_nil .nil (fun _ h => h) hs
            have hok : Serde.OkTree j := gj.ok (by
              simp only [List.length_nil, Nat.zero_add] at g2
              omega)
            have hL2 := walk_subset h hL
            have hL1 : ∀ b ∈ s1, b ∈ L := by
              rcases hfin with ⟨_, rfl⟩ | rfl
              · exact hL2
              · exact fun b hb => hL2 b (List.mem_append_left _ hb)
            obtain ⟨_, k2⟩ := ihs _ _ _ _ _ _ hfs (Sorted.subs hsub.1) hre.1 growing_nil hL1 hs
            obtain ⟨g1, g2⟩ := ih _ _ _ _ _ _ hfit hsub.2 hre.2 (hg.insert (x := ⟨.dir id, md⟩) hn trivial hm) hL h
            refine ⟨fun b hb => g1 b (hb.insert hg.sorted _ hnew), fun b hb => ?_⟩
            have put : Needed C L id b → NeededIn C L t' b := fun hb =>
              g1 b (.inr ⟨n, id, md, (BMap.mem_insert_iff hg.sorted).mpr (.inl ⟨rfl, rfl⟩), hb⟩)
            rcases g2 b hb with hb | hb
            · rcases hfin with ⟨rfl, rfl⟩ | rfl
              · rcases k2 b hb with hb | hb
                · exact .inl hb
                · exact absurd rfl hb.ne
              · have hin : ⟨C.encTree j, C.hash (C.encTree j), .tree⟩ ∈ L := hL2 _ (by simp)
                rcases List.mem_append.mp hb with hb | hb
                · rcases k2 b hb with hb | hb
                  · exact .inl hb
                  · refine .inr (put ?_)
                    rw [hid]
                    exact hb.up hok hin
                · simp only [List.mem_singleton] at hb
                  subst hb
                  refine .inr (put ?_)
                  rw [hid]
                  by_cases hj : j = []
                  · subst hj
                    simp only [noteVisitor, sendVisitor] at hf
                    simp at hf
                  · exact .self hok hj hin
            · exact .inr hb

/-- The top of the walk. -/
theorem backup_needed (hc : Chunk.Contract cut) {d : Dir Bytes} {pathOf : Name → Path}
    {prevRoot : Option Id} {root : Id} {L : List (Blob Id)}
    (hfit : Fits (keep filter pathOf d)) (hlen : (keep filter pathOf d).names.length < 2 ^ 64)
    (hsub : SubsSorted d)
    (hre : Reuse (fun cs _ => True ∧ cs.length < 2 ^ 64) F (prevRoot.bind (fun id => F.get? id))
      (keep filter pathOf d))
    (h : backupBlobs C cut filter F pathOf prevRoot d = .ok (root, L)) :
    ∀ b ∈ L, Needed C L root b := by
  intro b hb
  unfold backupBlobs walkTop at h
  split at h
  · cases h
  · rename_i j s1 hs
    obtain ⟨gj, g2, _⟩ := walk_rel (PF := fun _ _ => True) (PT := fun _ _ => True) (L := s1) hc
      (fun _ _ => trivial) (fun _ _ _ => trivial) d _ _ _ _ _ _ _ hfit hsub
      hre growing_nil .nil (fun _ h => h) hs
    have hok : Serde.OkTree j := gj.ok (by
      simp only [List.length_nil, Nat.zero_add] at g2
      omega)
    obtain ⟨hid, hfin⟩ := finalize_ok h
    have hL1 : ∀ b ∈ s1, b ∈ L := by
      rcases hfin with ⟨_, rfl⟩ | rfl
      · exact fun b hb => hb
      · exact fun b hb => List.mem_append_left _ hb
    obtain ⟨_, k2⟩ := walk_needed hc d _ _ _ _ _ _ hfit hsub hre growing_nil hL1 hs
    rcases hfin with ⟨rfl, rfl⟩ | rfl
    · rcases k2 b hb with hb | hb
      · cases hb
      · exact absurd rfl hb.ne
    · rw [hid]
      rcases List.mem_append.mp hb with hb | hb
      · rcases k2 b hb with hb | hb
        · cases hb
        · exact hb.up hok (by simp)
      · simp only [List.mem_singleton] at hb
        subst hb
        by_cases hj : j = []
        · subst hj
          simp only [noteVisitor, sendVisitor] at h
          simp at h
        · exact .self hok hj (by simp)

theorem file_mem {R : Repo Id} {cs : List Id} {x : Bytes} (h : FileHolds C R cs x) {c : Id} (hc : c ∈ cs) :
    ∃ y, Has C R ⟨y, c, .chunk⟩ := by
  induction h with
  | nil => cases hc
  | cons h1 _ ih =>
    rcases List.mem_cons.mp hc with rfl | hc
    · exact ⟨_, h1⟩
    · exact ih hc

theorem rel_file_mem {PF : List Id → Bytes → Prop} {PT : Id → Tree Id → Prop} {t : Tree Id} {d : Dir Bytes}
    (h : DirRel PF PT t d) {n : Name} {cs : List Id} {md : Meta}
    (hm : (n, (⟨.file cs, md⟩ : Node Id)) ∈ t) : ∃ x, PF cs x := by
  induction h with
  | nil => cases hm
  | file h0 _ ih =>
    rcases List.mem_cons.mp hm with h | h
    · cases h; exact ⟨_, h0⟩
    · exact ih h
  | link _ ih =>
    rcases List.mem_cons.mp hm with h | h
    · cases h
    · exact ih h
  | dir _ _ _ _ ih =>
    rcases List.mem_cons.mp hm with h | h
    · cases h
    · exact ih h

theorem rel_dir_mem {PF : List Id → Bytes → Prop} {PT : Id → Tree Id → Prop} {t : Tree Id} {d : Dir Bytes}
    (h : DirRel PF PT t d) {n : Name} {id : Id} {md : Meta}
    (hm : (n, (⟨.dir id, md⟩ : Node Id)) ∈ t) : ∃ u s, PT id u ∧ DirRel PF PT u s := by
  induction h with
  | nil => cases hm
  | file _ _ ih =>
    rcases List.mem_cons.mp hm with h | h
    · cases h
    · exact ih h
  | link _ ih =>
    rcases List.mem_cons.mp hm with h | h
    · cases h
    · exact ih h
  | dir h0 h1 _ _ ih =>
    rcases List.mem_cons.mp hm with h | h
    · cases h; exact ⟨_, _, h0, h1⟩
    · exact ih h

/-- What is needed by a tree that is stored is stored, if no two blobs share an ID. -/
theorem needed_stored {ids : Ids Id} {w : World Id} (hS : Sound C w.repo) (hl : Leftover C ids w)
    {L : List (Blob Id)} (hU : Unmixed C (fun b => Stored w b ∨ b ∈ L)) {id : Id} {b : Blob Id}
    (h : Needed C L id b) : ∀ d, Holds C w.repo id d → ∃ b', Stored w b' ∧ b'.id = b.id := by
  have has : ∀ b, Has C w.repo b → Stored w b := by
    intro b hb
    obtain ⟨p, bs, h1, h2, h3⟩ := (hS.has_iff _).mp hb
    exact ⟨p, bs, .inl ⟨h1, h2⟩, h3⟩
  have same : ∀ {t t0 : Tree Id}, Serde.OkTree t → ⟨C.encTree t, C.hash (C.encTree t), .tree⟩ ∈ L →
      TreeAt C w.repo (C.hash (C.encTree t)) t0 → t = t0 := by
    intro t t0 hok hL ht
    obtain ⟨h1, h2, h3⟩ := ht
    rcases h3 with rfl | h3
    · exact enc_inj hok h1 (hU.hash _ (emptyBlob C) (.inr hL) (.inr rfl) h2.symm)
    · refine enc_inj hok h1 (hU.hash ⟨C.encTree t, C.hash (C.encTree t), .tree⟩
        ⟨C.encTree t0, C.hash (C.encTree t), .tree⟩ (.inr hL) (.inl (.inl (has _ h3))) h2.symm)
  induction h with
  | self hok hne hL =>
    rintro d ⟨t0, h1, _⟩
    have := same hok hL h1
    subst this
    exact ⟨_, has _ (h1.2.2.resolve_left hne), rfl⟩
  | chunk hok hL hm hc =>
    rintro d ⟨t0, h1, h2⟩
    have := same hok hL h1
    subst this
    obtain ⟨x, hx⟩ := rel_file_mem h2 hm
    obtain ⟨y, hy⟩ := file_mem hx hc
    exact ⟨_, has _ hy, rfl⟩
  | sub hok hL hm _ ih =>
    rintro d ⟨t0, h1, h2⟩
    have := same hok hL h1
    subst this
    obtain ⟨u, s, g1, g2⟩ := rel_dir_mem h2 hm
    exact ih s ⟨u, g1, g2⟩

/-! ## A walk over what the parent holds -/

/-- A directory's entries are nodes of a tree, all the way down, but for what files hold. -/
def Same (F : Forest Id) : Tree Id → Dir Bytes → Prop
  | _, .nil => True
  | t, .leaf n md (.file _) r => (∃ cs, (n, (⟨.file cs, md⟩ : Node Id)) ∈ t) ∧ Same F t r
  | t, .leaf n md (.link tgt) r => (n, (⟨.link tgt, md⟩ : Node Id)) ∈ t ∧ Same F t r
  | t, .leaf _ _ .other r => Same F t r
  | t, .dir n md s r => (∃ id u, (n, (⟨.dir id, md⟩ : Node Id)) ∈ t ∧ F.get? id = some u ∧
      (∀ m ∈ BMap.keys u, m ∈ s.names) ∧ Same F u s) ∧ Same F t r

theorem held_names {PF : List Id → Bytes → Prop} {PT : Id → Tree Id → Prop} {t : Tree Id} {d : Dir Bytes}
    (h : DirRel PF PT t d) : BMap.keys t = d.names := by
  induction h with
  | nil => rfl
  | file _ _ ih => simp only [BMap.keys, List.map_cons, Dir.names] at ih ⊢; rw [ih]
  | link _ ih => simp only [BMap.keys, List.map_cons, Dir.names] at ih ⊢; rw [ih]
  | dir _ _ _ _ ih => simp only [BMap.keys, List.map_cons, Dir.names] at ih ⊢; rw [ih]

theorem same_of_held {PF : List Id → Bytes → Prop} {t : Tree Id} {d : Dir Bytes}
    (h : HeldIn PF F t d) : ∀ T : Tree Id, (∀ e ∈ t, e ∈ T) → Same F T d := by
  induction h with
  | nil => intro _ _; trivial
  | file _ _ ih => exact fun T hT => ⟨⟨_, hT _ List.mem_cons_self⟩, ih T (fun e he => hT e (by simp [he]))⟩
  | link _ ih => exact fun T hT => ⟨hT _ (by simp), ih T (fun e he => hT e (by simp [he]))⟩
  | dir h0 h1 _ ih1 ih => 
    exact fun T hT => ⟨⟨_, _, hT _ (by simp), h0, fun m hm => held_names h1 ▸ hm, ih1 _ (fun _ h => h)⟩,
      ih T (fun e he => hT e (by simp [he]))⟩

theorem same_leaf {t : Tree Id} {n : Name} {md : Meta} {l : Leaf Bytes} {r : Dir Bytes} :
    Same F t (.leaf n md l r) ↔ Same F t (.leaf n md l .nil) ∧ Same F t r := by
  cases l <;> simp [Same]

theorem same_dir {t : Tree Id} {n : Name} {md : Meta} {s r : Dir Bytes} :
    Same F t (.dir n md s r) ↔ Same F t (.dir n md s .nil) ∧ Same F t r := by
  simp [Same]

theorem same_putLeaf {t : Tree Id} {n : Name} {md : Meta} {l : Leaf Bytes} {d : Dir Bytes}
    (h : Same F t (d.putLeaf n md l)) (hn : n ∉ d.names) : Same F t (.leaf n md l .nil) ∧ Same F t d := by
  induction d with
  | nil => exact ⟨h, trivial⟩
  | leaf n' md' l' r ih =>
    unfold Dir.putLeaf at h
    simp only [Dir.names, List.mem_cons, not_or] at hn
    split at h
    · exact same_leaf.mp h
    · rw [if_neg hn.1] at h
      obtain ⟨h1, h2⟩ := same_leaf.mp h
      exact ⟨(ih h2 hn.2).1, same_leaf.mpr ⟨h1, (ih h2 hn.2).2⟩⟩
  | dir n' md' s r _ ih =>
    unfold Dir.putLeaf at h
    simp only [Dir.names, List.mem_cons, not_or] at hn
    split at h
    · exact same_leaf.mp h
    · rw [if_neg hn.1] at h
      obtain ⟨h1, h2⟩ := same_dir.mp h
      exact ⟨(ih h2 hn.2).1, same_dir.mpr ⟨h1, (ih h2 hn.2).2⟩⟩

theorem same_putDir {t : Tree Id} {n : Name} {md : Meta} {s d : Dir Bytes}
    (h : Same F t (Dir.putDir n md s d)) (hn : n ∉ d.names) : Same F t (.dir n md s .nil) ∧ Same F t d := by
  induction d with
  | nil => exact ⟨h, trivial⟩
  | leaf n' md' l' r ih =>
    unfold Dir.putDir at h
    simp only [Dir.names, List.mem_cons, not_or] at hn
    split at h
    · exact same_dir.mp h
    · rw [if_neg hn.1] at h
      obtain ⟨h1, h2⟩ := same_leaf.mp h
      exact ⟨(ih h2 hn.2).1, same_leaf.mpr ⟨h1, (ih h2 hn.2).2⟩⟩
  | dir n' md' s' r _ ih =>
    unfold Dir.putDir at h
    simp only [Dir.names, List.mem_cons, not_or] at hn
    split at h
    · exact same_dir.mp h
    · rw [if_neg hn.1] at h
      obtain ⟨h1, h2⟩ := same_dir.mp h
      exact ⟨(ih h2 hn.2).1, same_dir.mpr ⟨h1, (ih h2 hn.2).2⟩⟩

theorem names_putLeaf {n : Name} {md : Meta} {l : Leaf Bytes} {d : Dir Bytes} {m : Name} :
    m ∈ (d.putLeaf n md l).names ↔ m = n ∨ m ∈ d.names := by
  induction d with
  | nil => simp [Dir.putLeaf, Dir.names]
  | leaf n' md' l' r ih =>
    unfold Dir.putLeaf
    split
    · simp [Dir.names]
    · split
      · rename_i he; subst he; simp [Dir.names]
      · simp [Dir.names, ih]; tauto
  | dir n' md' s r _ ih =>
    unfold Dir.putLeaf
    split
    · simp [Dir.names]
    · split
      · rename_i he; subst he; simp [Dir.names]
      · simp [Dir.names, ih]; tauto

theorem names_putDir {n : Name} {md : Meta} {s d : Dir Bytes} {m : Name} :
    m ∈ (Dir.putDir n md s d).names ↔ m = n ∨ m ∈ d.names := by
  induction d with
  | nil => simp [Dir.putDir, Dir.names]
  | leaf n' md' l' r ih =>
    unfold Dir.putDir
    split
    · simp [Dir.names]
    · split
      · rename_i he; subst he; simp [Dir.names]
      · simp [Dir.names, ih]; tauto
  | dir n' md' s' r _ ih =>
    unfold Dir.putDir
    split
    · simp [Dir.names]
    · split
      · rename_i he; subst he; simp [Dir.names]
      · simp [Dir.names, ih]; tauto

theorem same_putAll {t : Tree Id} (d : Dir Bytes) : ∀ acc : Dir Bytes, Same F t (putAll acc d) →
    d.names.Nodup → (∀ m ∈ d.names, m ∉ acc.names) → Same F t acc ∧ Same F t d := by
  induction d with
  | nil => exact fun acc h _ _ => ⟨h, trivial⟩
  | leaf n md l r ih =>
    intro acc h hn hd
    simp only [Dir.names, List.nodup_cons] at hn
    obtain ⟨h1, h2⟩ := ih _ h hn.2 (by
      intro m hm hin
      rcases names_putLeaf.mp hin with rfl | hin
      · exact hn.1 hm
      · exact hd m (by simp [Dir.names, hm]) hin)
    obtain ⟨h3, h4⟩ := same_putLeaf h1 (hd n (by simp [Dir.names]))
    exact ⟨h4, same_leaf.mpr ⟨h3, h2⟩⟩
  | dir n md s r _ ih =>
    intro acc h hn hd
    simp only [Dir.names, List.nodup_cons] at hn
    obtain ⟨h1, h2⟩ := ih _ h hn.2 (by
      intro m hm hin
      rcases names_putDir.mp hin with rfl | hin
      · exact hn.1 hm
      · exact hd m (by simp [Dir.names, hm]) hin)
    obtain ⟨h3, h4⟩ := same_putDir h1 (hd n (by simp [Dir.names]))
    exact ⟨h4, same_dir.mpr ⟨h3, h2⟩⟩

theorem names_putAll (d : Dir Bytes) : ∀ acc : Dir Bytes, ∀ m, m ∈ (putAll acc d).names ↔
    m ∈ acc.names ∨ m ∈ d.names := by
  induction d with
  | nil => intro acc m; simp [putAll, Dir.names]
  | leaf n md l r ih => intro acc m; simp [putAll, Dir.names, ih, names_putLeaf]; tauto
  | dir n md s r _ ih => intro acc m; simp [putAll, Dir.names, ih, names_putDir]; tauto

/-- A walk that succeeds has met no name twice. -/
theorem walk_names (d : Dir Bytes) : ∀ (pathOf : Name → Path) (pt : Option (Tree Id)) (t t' : Tree Id)
      (l l' : List (Blob Id)), walkFs (noteVisitor C cut) filter F pathOf pt d t l = .ok (t', l') →
      (keep filter pathOf d).names.Nodup ∧ ∀ m ∈ (keep filter pathOf d).names, m ∉ BMap.keys t := by
  have step : ∀ {t : Tree Id} {n : Name} {x : Node Id} {ns : List Name}, BMap.get? t n = none →
      ns.Nodup ∧ (∀ m ∈ ns, m ∉ BMap.keys (BMap.insert n x t)) →
      (n :: ns).Nodup ∧ ∀ m ∈ n :: ns, m ∉ BMap.keys t := by
    intro t n x ns hn ⟨h1, h2⟩
    refine ⟨List.nodup_cons.mpr ⟨fun hm => h2 n hm (BMap.keys_insert_mem.mpr (.inl rfl)), h1⟩, ?_⟩
    intro m hm hk
    rcases List.mem_cons.mp hm with rfl | hm
    · exact BMap.get?_eq_none_iff.mp hn hk
    · exact h2 m hm (BMap.keys_insert_mem.mpr (.inr hk))
  induction d with
  | nil => intro _ _ _ _ _ _ _; simp [keep, Dir.names]
  | leaf n md lf rest ih =>
    intro pathOf pt t t' l l' h
    unfold walkFs at h
    by_cases hfil : filter (pathOf n) = false
    · rw [if_pos hfil] at h
      rw [keep, if_pos (.inl hfil)]
      exact ih _ _ _ _ _ _ h
    · rw [if_neg hfil] at h
      simp only at h
      by_cases hlf : lf = .other
      · subst hlf
        rw [keep, if_pos (.inr rfl)]
        exact ih _ _ _ _ _ _ h
      · rw [keep, if_neg (by simp [hfil, hlf])]
        cases lf with
        | other => exact absurd rfl hlf
        | link tgt =>
          simp only at h
          split at h
          · cases h
          · rename_i i' s' hv
            obtain ⟨hnew, rfl, rfl⟩ := visit_link hv
            exact step hnew (ih _ _ _ _ _ _ h)
        | file x =>
          simp only at h
          split at h
          · cases h
          · split at h
            · cases h
            · rename_i ch hch _ i' s' hv
              cases ch with
              | true =>
                obtain ⟨hnew, rfl, rfl⟩ := visit_changed hv
                exact step hnew (ih _ _ _ _ _ _ h)
              | false =>
                obtain ⟨hnew, p, hp, rfl, rfl⟩ := visit_unchanged hv
                exact step hnew (ih _ _ _ _ _ _ h)
  | dir n md sub rest _ ih =>
    intro pathOf pt t t' l l' h
    unfold walkFs at h
    by_cases hfil : filter (pathOf n) = false
    · rw [if_pos hfil] at h
      rw [keep, if_pos hfil]
      exact ih _ _ _ _ _ _ h
    · rw [if_neg hfil] at h
      rw [keep, if_neg hfil]
      simp only [prevSub_eq, note_init] at h
      split at h
      · cases h
      · split at h
        · cases h
        · split at h
          · cases h
          · rename_i i' s' hv
            obtain ⟨hnew, rfl, rfl⟩ := visit_dir hv
            exact step hnew (ih _ _ _ _ _ _ h)

theorem mem_ext {K V : Type} [LinearOrder K] {m m' : BMap K V} (h : BMap.Sorted m) (h' : BMap.Sorted m')
    (he : ∀ e, e ∈ m ↔ e ∈ m') : m = m' := by
  refine BMap.ext_get? h h' (fun k => ?_)
  cases hk : BMap.get? m k with
  | none =>
    cases hk' : BMap.get? m' k with
    | none => rfl
    | some v =>
      rw [(BMap.get?_eq_some_iff h).mpr ((he _).mpr (BMap.mem_of_get? hk'))] at hk
      cases hk
  | some v => exact ((BMap.get?_eq_some_iff h').mpr ((he _).mp (BMap.mem_of_get? hk))).symm

/-- A blob that is a tree of the forest, and not the empty one. -/
def StoredTree (C : Codec Id) (F : Forest Id) (b : Blob Id) : Prop :=
  ∃ u, u ≠ [] ∧ F.get? (C.hash (C.encTree u)) = some u ∧ b = ⟨C.encTree u, C.hash (C.encTree u), .tree⟩

/-- A walk over what the previous tree holds puts its nodes together again. -/
theorem walk_same (hF : ∀ id u, F.get? id = some u → BMap.Sorted u ∧ C.hash (C.encTree u) = id)
    (d : Dir Bytes) : ∀ (pathOf : Name → Path) (t0 t t' : Tree Id)
      (l l' : List (Blob Id)), BMap.Sorted t0 → BMap.Sorted t → Same F t0 (keep filter pathOf d) →
      walkFs (noteVisitor C cut) filter F pathOf (some t0) d t l = .ok (t', l') →
      (BMap.Sorted t' ∧ ∀ e, e ∈ t' ↔ (e ∈ t0 ∧ e.1 ∈ (keep filter pathOf d).names) ∨ e ∈ t) ∧
      ∀ b ∈ l', b ∈ l ∨ StoredTree C F b := by
  have step : ∀ {t0 t t' : Tree Id} {n : Name} {x : Node Id} {ns : List Name}, BMap.Sorted t0 →
      BMap.Sorted t → BMap.get? t n = none → (n, x) ∈ t0 →
      (BMap.Sorted t' ∧ ∀ e, e ∈ t' ↔ (e ∈ t0 ∧ e.1 ∈ ns) ∨ e ∈ BMap.insert n x t) →
      BMap.Sorted t' ∧ ∀ e, e ∈ t' ↔ (e ∈ t0 ∧ e.1 ∈ n :: ns) ∨ e ∈ t := by
    intro t0 t t' n x ns h0 ht hn hx ⟨h1, h2⟩
    refine ⟨h1, fun ⟨m, y⟩ => ?_⟩
    rw [h2, BMap.mem_insert_iff ht, List.mem_cons]
    constructor
    · rintro (⟨h3, h4⟩ | ⟨rfl, rfl⟩ | ⟨_, h3⟩)
      · exact .inl ⟨h3, .inr h4⟩
      · exact .inl ⟨hx, .inl rfl⟩
      · exact .inr h3
    · rintro (⟨h3, h4 | h4⟩ | h3)
      · simp only at h4
        subst h4
        have a := (BMap.get?_eq_some_iff h0).mpr hx
        rw [(BMap.get?_eq_some_iff h0).mpr h3] at a
        exact .inr (.inl ⟨rfl, Option.some.inj a⟩)
      · exact .inl ⟨h3, h4⟩
      · refine .inr (.inr ⟨?_, h3⟩)
        rintro rfl
        exact BMap.get?_eq_none_iff.mp hn (BMap.mem_keys_of_mem h3)
  induction d with
  | nil =>
    intro pathOf t0 t t' l l' _ hs _ h
    cases h
    exact ⟨⟨hs, fun e => by simp [keep, Dir.names]⟩, fun b hb => .inl hb⟩
  | leaf n md lf rest ih =>
    intro pathOf t0 t t' l l' h0 hs hsame h
    unfold walkFs at h
    by_cases hfil : filter (pathOf n) = false
    · rw [if_pos hfil] at h
      rw [keep, if_pos (.inl hfil)] at hsame ⊢
      exact ih _ _ _ _ _ _ h0 hs hsame h
    · rw [if_neg hfil] at h
      simp only at h
      by_cases hlf : lf = .other
      · subst hlf
        rw [keep, if_pos (.inr rfl)] at hsame ⊢
        exact ih _ _ _ _ _ _ h0 hs hsame h
      · rw [keep, if_neg (by simp [hfil, hlf])] at hsame ⊢
        cases lf with
        | other => exact absurd rfl hlf
        | link tgt =>
          simp only at h
          split at h
          · cases h
          · rename_i i' s' hv
            obtain ⟨hnew, rfl, rfl⟩ := visit_link hv
            have g := ih _ _ _ _ _ _ h0 (BMap.sorted_insert hs _ _) hsame.2 h
            exact ⟨step h0 hs hnew hsame.1 g.1, g.2⟩
        | file x =>
          obtain ⟨⟨cs, hcs⟩, hrest⟩ := hsame
          have hget : BMap.get? t0 n = some ⟨.file cs, md⟩ :=
            BMap.get?_of_mem_nodup h0.nodup hcs
          simp only [Option.bind_some] at h
          split at h
          · cases h
          · split at h
            · cases h
            · rename_i ch hch _ i' s' hv
              have hch' : ch = false := by
                cases ch with
                | false => rfl
                | true =>
                  exfalso
                  rw [hget] at hch
                  unfold fileChanged at hch
                  split at hch
                  · cases hch
                  · rename_i hk
                    simp only [ne_eq, not_not] at hk
                    simp [Node.kind, hk, Contents.kind] at hch
              subst hch'
              obtain ⟨hnew, p, hp, rfl, rfl⟩ := visit_unchanged hv
              have hp' : some p = some ⟨.file cs, md⟩ := by rw [← hp, ← hget]
              cases hp'
              have g := ih _ _ _ _ _ _ h0 (BMap.sorted_insert hs _ _) hrest h
              exact ⟨step h0 hs hnew hcs g.1, g.2⟩
  | dir n md sub rest ihs ih =>
    intro pathOf t0 t t' l l' h0 hs hsame h
    unfold walkFs at h
    by_cases hfil : filter (pathOf n) = false
    · rw [if_pos hfil] at h
      rw [keep, if_pos hfil] at hsame ⊢
      exact ih _ _ _ _ _ _ h0 hs hsame h
    · rw [if_neg hfil] at h
      rw [keep, if_neg hfil] at hsame ⊢
      obtain ⟨⟨id, u, hid, hu, hkeys, hsub⟩, hrest⟩ := hsame
      have hget : BMap.get? t0 n = some ⟨.dir id, md⟩ :=
        BMap.get?_of_mem_nodup h0.nodup hid
      have hprev : prevSub F (some t0) n = some u := by
        unfold prevSub prevNode
        simp only [Option.bind_some]
        rw [hget]
        exact hu
      simp only [prevSub_eq, note_init, hprev] at h
      split at h
      · cases h
      · rename_i j s1 hw
        split at h
        · cases h
        · rename_i id' s2 hf
          split at h
          · cases h
          · rename_i i' s' hv
            obtain ⟨hnew, rfl, rfl⟩ := visit_dir hv
            obtain ⟨⟨gj, hj⟩, hbs⟩ := ihs _ _ _ _ _ _ (hF id u hu).1 BMap.sorted_nil hsub hw
            have hju : j = u := mem_ext gj (hF id u hu).1 (fun e => by
              rw [hj]
              constructor
              · rintro (h | h)
                · exact h.1
                · cases h
              · exact fun h => .inl ⟨h, hkeys _ (List.mem_map_of_mem h)⟩)
            obtain ⟨hid', hfin⟩ := finalize_ok hf
            rw [hju, (hF id u hu).2] at hid'
            subst hid'
            have g := ih _ _ _ _ _ _ h0 (BMap.sorted_insert hs _ _) hrest h
            refine ⟨step h0 hs hnew hid g.1, fun b hb => ?_⟩
            rcases g.2 b hb with hb | hb
            · rcases hfin with ⟨rfl, rfl⟩ | rfl
              · exact hbs b hb
              · rcases List.mem_append.mp hb with hb | hb
                · exact hbs b hb
                · simp only [List.mem_singleton] at hb
                  subst hb
                  by_cases hj0 : j = []
                  · subst hj0
                    simp only [noteVisitor, sendVisitor] at hf
                    simp at hf
                  · subst hju
                    exact .inr ⟨j, hj0, by rw [(hF _ _ hu).2]; exact hu, rfl⟩
            · exact .inr hb

/-- The top of the walk: over what the previous root holds it gives that root, and offers only
trees that are in the forest. -/
theorem backup_same (hF : ∀ id u, F.get? id = some u → BMap.Sorted u ∧ C.hash (C.encTree u) = id)
    {PF : List Id → Bytes → Prop} {d : Dir Bytes} {pathOf : Name → Path} {p root : Id} {t0 : Tree Id}
    {L : List (Blob Id)} (hp : F.get? p = some t0) (hd : HeldIn PF F t0 (arrange (keep filter pathOf d)))
    (h : backupBlobs C cut filter F pathOf (some p) d = .ok (root, L)) :
    root = p ∧ ∀ b ∈ L, StoredTree C F b := by
  unfold backupBlobs walkTop at h
  simp only [Option.bind_some, hp] at h
  split at h
  · cases h
  · rename_i j s1 hw
    obtain ⟨hnd, _⟩ := walk_names d _ _ _ _ _ _ hw
    have hsame := (same_putAll _ .nil (same_of_held hd t0 (fun _ h => h)) hnd (by simp [Dir.names])).2
    obtain ⟨⟨gj, hj⟩, hbs⟩ := walk_same hF d _ _ _ _ _ _ (hF p t0 hp).1 BMap.sorted_nil hsame hw
    have hju : j = t0 := mem_ext gj (hF p t0 hp).1 (fun e => by
      rw [hj]
      constructor
      · rintro (h | h)
        · exact h.1
        · cases h
      · intro h
        refine .inl ⟨h, ?_⟩
        have : e.1 ∈ BMap.keys t0 := List.mem_map_of_mem h
        rw [held_names hd] at this
        simpa [Dir.names] using (names_putAll _ _ _).mp this)
    obtain ⟨hid, hfin⟩ := finalize_ok h
    rw [hju, (hF p t0 hp).2] at hid
    refine ⟨hid, fun b hb => ?_⟩
    have old : b ∈ s1 → StoredTree C F b := by
      intro hb
      rcases hbs b hb with hb | hb
      · cases hb
      · exact hb
    rcases hfin with ⟨_, rfl⟩ | rfl
    · exact old hb
    · rcases List.mem_append.mp hb with hb | hb
      · exact old hb
      · simp only [List.mem_singleton] at hb
        subst hb
        by_cases hj0 : j = []
        · subst hj0
          simp only [noteVisitor, sendVisitor] at h
          simp at h
        · subst hju
          exact ⟨j, hj0, by rw [(hF _ _ hp).2]; exact hp, rfl⟩

end Backpak.Again
