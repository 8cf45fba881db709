import Verif.Lemmas.Parent
import Verif.Props.C23
import Verif.Spec.Demo

/-!
# C21 - Incremental backup equals full backup
-/

namespace Backpak.C21

open Spec

variable {Id : Type} [LinearOrder Id] {C : Codec Id} {cut : Bytes → Nat} {filter : Path → Bool}

/-- The chunks of a file, as a backup that reads it records them. -/
def Exact (C : Codec Id) (cut : Bytes → Nat) (cs : List Id) (x : Bytes) : Prop :=
  cs = (Chunk.chunkFile C.hash cut x).map Blob.id

theorem fileChanged_none {md : Meta} {prev : Option (Node Id)} {ch : Bool}
    (h : fileChanged md prev = .ok ch) : md.kind = .file := by
  unfold fileChanged at h
  split at h
  · cases h
  · rename_i hk; simpa using hk

theorem addNode_new {t : Tree Id} {n : Name} {x : Node Id} (h : BMap.get? t n = none) :
    addNode t n x = .ok (BMap.insert n x t) := by
  unfold addNode
  rw [if_neg (by simp [h])]

theorem changed_ok {t : Tree Id} {n : Name} {md : Meta} {prev : Option (Node Id)} {x : Bytes}
    {l : List (Blob Id)} (h : BMap.get? t n = none) :
    (noteVisitor C cut).visit t n md prev (.changed x) l =
      .ok (BMap.insert n ⟨.file ((Chunk.chunkFile C.hash cut x).map Blob.id), md⟩ t,
        l ++ Chunk.chunkFile C.hash cut x) := by
  simp only [noteVisitor, sendVisitor, addNode_new h, foldl_note]
  rfl

theorem link_ok {t : Tree Id} {n : Name} {md : Meta} {prev : Option (Node Id)} {x : Bytes}
    {l : List (Blob Id)} (h : BMap.get? t n = none) :
    (noteVisitor C cut).visit t n md prev (.link x) l = .ok (BMap.insert n ⟨.link x, md⟩ t, l) := by
  simp only [noteVisitor, sendVisitor, addNode_new h]
  rfl

theorem dir_ok {t : Tree Id} {n : Name} {md : Meta} {prev : Option (Node Id)} {x : Id}
    {l : List (Blob Id)} (h : BMap.get? t n = none) :
    (noteVisitor C cut).visit t n md prev (.dir x) l = .ok (BMap.insert n ⟨.dir x, md⟩ t, l) := by
  simp only [noteVisitor, sendVisitor, addNode_new h]
  rfl

theorem finalize_any {t : Tree Id} {l l' m : List (Blob Id)} {id : Id}
    (h : (noteVisitor C cut).finalize t l = .ok (id, l')) :
    ∃ m', (noteVisitor C cut).finalize t m = .ok (id, m') := by
  simp only [noteVisitor, sendVisitor] at h ⊢
  split at h
  · cases h; exact ⟨_, by rw [if_pos (by assumption)]⟩
  · cases h; exact ⟨_, by rw [if_neg (by assumption)]⟩

/-- A walk that reuses only what it would have computed gives what a walk without a parent
gives. -/
theorem walk_full {F : Forest Id} (d : Dir Bytes) : ∀ (pathOf : Name → Path) (pt : Option (Tree Id))
    (t t' : Tree Id) (l l' : List (Blob Id)), Reuse (Exact C cut) F pt (keep filter pathOf d) →
    walkFs (noteVisitor C cut) filter F pathOf pt d t l = .ok (t', l') →
    ∀ m, ∃ m', walkFs (noteVisitor C cut) filter [] pathOf none d t m = .ok (t', m') := by
  induction d with
  | nil => intro _ _ t t' l l' _ h m; cases h; exact ⟨m, rfl⟩
  | leaf n md lf rest ih =>
    intro pathOf pt t t' l l' hre h m
    unfold walkFs at h ⊢
    by_cases hfil : filter (pathOf n) = false
    · rw [if_pos hfil] at h ⊢
      rw [keep, if_pos (.inl hfil)] at hre
      exact ih _ _ _ _ _ _ hre h m
    · rw [if_neg hfil] at h ⊢
      simp only at h ⊢
      cases lf with
      | other =>
        rw [keep, if_pos (.inr rfl)] at hre
        exact ih _ _ _ _ _ _ hre h m
      | link tgt =>
        rw [keep, if_neg (by simp [hfil])] at hre
        simp only at h ⊢
        split at h
        · cases h
        · rename_i i' s' hv
          obtain ⟨h0, rfl, rfl⟩ := visit_link hv
          rw [link_ok h0]
          exact ih _ _ _ _ _ _ hre.2 h m
      | file x =>
        rw [keep, if_neg (by simp [hfil])] at hre
        simp only at h ⊢
        split at h
        · cases h
        · split at h
          · cases h
          · rename_i ch hch _ i' s' hv
            have hk := fileChanged_none hch
            have hnone : fileChanged md (((none : Option (Tree Id)).bind fun t => BMap.get? t n)) = .ok true := by
              simp [fileChanged, hk]
            rw [hnone]
            simp only [if_true]
            have hcase : BMap.get? t n = none ∧
                i' = BMap.insert n ⟨.file ((Chunk.chunkFile C.hash cut x).map Blob.id), md⟩ t := by
              cases ch with
              | true =>
                obtain ⟨h0, hi, _⟩ := visit_changed hv
                exact ⟨h0, hi⟩
              | false =>
                obtain ⟨h0, p, hp, hi, _⟩ := visit_unchanged hv
                obtain ⟨cs, m', hp', hun⟩ := fileChanged_false hch
                have := hre.1 x cs m' rfl hp' hun
                rw [hp] at hp'
                cases hp'
                subst this
                exact ⟨h0, hi⟩
            obtain ⟨h0, rfl⟩ := hcase
            rw [changed_ok h0]
            exact ih _ _ _ _ _ _ hre.2 h _
  | dir n md sub rest ihs ih =>
    intro pathOf pt t t' l l' hre h m
    unfold walkFs at h ⊢
    by_cases hfil : filter (pathOf n) = false
    · rw [if_pos hfil] at h ⊢
      rw [keep, if_pos hfil] at hre
      exact ih _ _ _ _ _ _ hre h m
    · rw [if_neg hfil] at h ⊢
      rw [keep, if_neg hfil] at hre
      simp only [prevSub_eq, note_init] at h ⊢
      have hnone : prevSub ([] : Forest Id) none n = none := rfl
      rw [hnone]
      split at h
      · cases h
      · rename_i j s1 hs
        obtain ⟨m1, hm1⟩ := ihs _ _ _ _ _ _ hre.1 hs m
        rw [hm1]
        simp only
        split at h
        · cases h
        · rename_i id s2 hf
          obtain ⟨m2, hm2⟩ := finalize_any (m := m1) hf
          rw [hm2]
          simp only
          split at h
          · cases h
          · rename_i i' s' hv
            obtain ⟨h0, rfl, rfl⟩ := visit_dir hv
            rw [dir_ok h0]
            exact ih _ _ _ _ _ _ hre.2 h _

/-- The nodes of the tree a walk compares with agree with their metadata. -/
def PrevOk (pt : Option (Tree Id)) : Prop :=
  ∀ n x, prevNode pt n = some x → x.md.kind = x.contents.kind

theorem prevOk_sub {F : Forest Id} (hF : NodesOk F) (pt : Option (Tree Id)) (n : Name) :
    PrevOk (prevSub F pt n) := by
  intro m x hx
  unfold prevSub at hx
  split at hx
  · rename_i id md _
    cases hg : F.get? id with
    | none => simp [hg, prevNode] at hx
    | some t => rw [hg] at hx; exact hF id t hg m x hx
  · simp [prevNode] at hx

theorem fileChanged_ok {md : Meta} (hk : md.kind = .file) {prev : Option (Node Id)}
    (hp : ∀ x, prev = some x → x.md.kind = x.contents.kind) : ∃ ch, fileChanged md prev = .ok ch := by
  unfold fileChanged
  rw [if_neg (by simp [hk])]
  cases prev with
  | none => exact ⟨true, rfl⟩
  | some p =>
    simp only [Node.kind, hp p rfl, if_true]
    split
    · exact ⟨_, rfl⟩
    · split
      · exact ⟨_, rfl⟩
      · split <;> exact ⟨_, rfl⟩

/-- And a walk with a parent succeeds when the walk without one does. -/
theorem walk_inc {F : Forest Id} (hF : NodesOk F) (d : Dir Bytes) :
    ∀ (pathOf : Name → Path) (pt : Option (Tree Id)) (t t' : Tree Id) (m m' : List (Blob Id)),
    PrevOk pt → Sized (keep filter pathOf d) → Reuse (Exact C cut) F pt (keep filter pathOf d) →
    walkFs (noteVisitor C cut) filter [] pathOf none d t m = .ok (t', m') →
    ∀ l, ∃ l', walkFs (noteVisitor C cut) filter F pathOf pt d t l = .ok (t', l') := by
  induction d with
  | nil => intro _ _ t t' l l' _ _ _ h m; cases h; exact ⟨m, rfl⟩
  | leaf n md lf rest ih =>
    intro pathOf pt t t' m m' hpt hsz hre h l
    unfold walkFs at h ⊢
    by_cases hfil : filter (pathOf n) = false
    · rw [if_pos hfil] at h ⊢
      rw [keep, if_pos (.inl hfil)] at hre hsz
      exact ih _ _ _ _ _ _ hpt hsz hre h l
    · rw [if_neg hfil] at h ⊢
      simp only at h ⊢
      cases lf with
      | other =>
        rw [keep, if_pos (.inr rfl)] at hre hsz
        exact ih _ _ _ _ _ _ hpt hsz hre h l
      | link tgt =>
        rw [keep, if_neg (by simp [hfil])] at hre hsz
        simp only at h ⊢
        split at h
        · cases h
        · rename_i i' s' hv
          obtain ⟨h0, rfl, rfl⟩ := visit_link hv
          rw [link_ok h0]
          exact ih _ _ _ _ _ _ hpt hsz.2 hre.2 h l
      | file x =>
        rw [keep, if_neg (by simp [hfil])] at hre hsz
        simp only at h ⊢
        split at h
        · cases h
        · rename_i ch' hch'
          have hk := fileChanged_none hch'
          have : ch' = true := by
            simp [fileChanged, hk] at hch'
            exact hch'
          subst this
          split at h
          · cases h
          · rename_i i' s' hv
            obtain ⟨h0, rfl, rfl⟩ := visit_changed hv
            obtain ⟨ch, hch⟩ := fileChanged_ok hk (prev := pt.bind fun t => BMap.get? t n)
              (fun y hy => hpt n y hy)
            rw [hch]
            cases ch with
            | true =>
              simp only [if_true]
              rw [changed_ok h0]
              exact ih _ _ _ _ _ _ hpt hsz.2 hre.2 h _
            | false =>
              obtain ⟨cs, m0, hp', hun⟩ := fileChanged_false hch
              have hcs := hre.1 x cs m0 rfl hp' hun
              simp only [hp', noteVisitor, sendVisitor, Bool.false_eq_true, if_false]
              rw [if_neg (hsz.1 x rfl), addNode_new h0, hcs]
              exact ih _ _ _ _ _ _ hpt hsz.2 hre.2 h _
  | dir n md sub rest ihs ih =>
    intro pathOf pt t t' m m' hpt hsz hre h l
    unfold walkFs at h ⊢
    by_cases hfil : filter (pathOf n) = false
    · rw [if_pos hfil] at h ⊢
      rw [keep, if_pos hfil] at hre hsz
      exact ih _ _ _ _ _ _ hpt hsz hre h l
    · rw [if_neg hfil] at h ⊢
      rw [keep, if_neg hfil] at hre hsz
      simp only [prevSub_eq, note_init] at h ⊢
      have hnone : prevSub ([] : Forest Id) none n = none := rfl
      rw [hnone] at h
      split at h
      · cases h
      · rename_i j s1 hs
        obtain ⟨m1, hm1⟩ := ihs _ _ _ _ _ _ (prevOk_sub hF pt n) hsz.1 hre.1 hs l
        rw [hm1]
        simp only
        split at h
        · cases h
        · rename_i id s2 hf
          obtain ⟨m2, hm2⟩ := finalize_any (m := m1) hf
          rw [hm2]
          simp only
          split at h
          · cases h
          · rename_i i' s' hv
            obtain ⟨h0, rfl, rfl⟩ := visit_dir hv
            rw [dir_ok h0]
            exact ih _ _ _ _ _ _ hpt hsz.2 hre.2 h _

/-- The root a backup ends with does not depend on what is packed already. -/
theorem backup_root {F : Forest Id} {pathOf : Name → Path} {prevRoot : Option Id} {d : Dir Bytes}
    {s : Sends Id} {root : Id} : (∃ s', backupTree C cut filter F pathOf prevRoot d s = .ok (root, s')) ↔
      ∃ L, backupBlobs C cut filter F pathOf prevRoot d = .ok (root, L) := by
  rw [backupTree_eq]
  cases backupBlobs C cut filter F pathOf prevRoot d with
  | error e => simp [Except.map]
  | ok r => simp only [Except.map, Except.ok.injEq, Prod.mk.injEq, Prod.ext_iff]; tauto

/-- If every file that looks unmodified since the parent has the chunks recorded there, a backup
against the parent gives the tree a backup without one gives, and fails only if that fails. -/
theorem incremental_is_full (F : Forest Id) (pathOf : Name → Path) (prevRoot : Option Id)
    (d : Dir Bytes) (s₁ s₂ : Sends Id) (root : Id) (hF : NodesOk F)
    (hsz : Sized (keep filter pathOf d))
    (hsame : Reuse (Exact C cut) F (prevRoot.bind (fun id => F.get? id)) (keep filter pathOf d)) :
    (∃ s', backupTree C cut filter F pathOf prevRoot d s₁ = .ok (root, s')) ↔
    ∃ s', backupTree C cut filter [] pathOf none d s₂ = .ok (root, s') := by
  rw [backup_root, backup_root]
  have hpt : PrevOk (prevRoot.bind (fun id => F.get? id)) := by
    intro n x hx
    cases prevRoot with
    | none => simp [prevNode] at hx
    | some id =>
      cases hg : F.get? id with
      | none => simp [hg, prevNode] at hx
      | some t => simp only [Option.bind_some, hg, prevNode] at hx; exact hF id t hg n x hx
  constructor
  · rintro ⟨L, h⟩
    unfold backupBlobs walkTop at h ⊢
    split at h
    · cases h
    · rename_i i s' hw
      obtain ⟨m1, hm1⟩ := walk_full d _ _ _ _ _ _ hsame hw []
      obtain ⟨m2, hm2⟩ := finalize_any (m := m1) h
      simp only [Option.bind_none]
      exact ⟨m2, by rw [hm1]; exact hm2⟩
  · rintro ⟨L, h⟩
    unfold backupBlobs walkTop at h ⊢
    split at h
    · cases h
    · rename_i i s' hw
      obtain ⟨m1, hm1⟩ := walk_inc hF d _ _ _ _ _ _ hpt hsz hsame hw []
      obtain ⟨m2, hm2⟩ := finalize_any (m := m1) h
      exact ⟨m2, by rw [hm1]; exact hm2⟩

/-! ## The parent's own contents -/

/-- The nodes of a tree stand for the entries of a directory, subtrees being in the forest. -/
abbrev MadeFrom (C : Codec Id) (cut : Bytes → Nat) (F : Forest Id) : Tree Id → Dir Bytes → Prop :=
  HeldIn (Exact C cut) F

/-- The same with the parent given by the file tree `d0` it was made from: if every file that
looks unmodified has the bytes it had then, the parent makes no difference. -/
theorem incremental_is_full_of_parent (F : Forest Id) (pathOf : Name → Path) (parent : Id)
    (d0 d : Dir Bytes) (s₁ s₂ : Sends Id) (root : Id) (hF : NodesOk F)
    (hsz : Sized (keep filter pathOf d))
    (hmade : ∀ t, F.get? parent = some t → MadeFrom C cut F t d0)
    (hfaith : Faithful d0 (keep filter pathOf d)) :
    (∃ s', backupTree C cut filter F pathOf (some parent) d s₁ = .ok (root, s')) ↔
    ∃ s', backupTree C cut filter [] pathOf none d s₂ = .ok (root, s') :=
  incremental_is_full F pathOf (some parent) d s₁ s₂ root hF hsz
    (reuse_of_faithful _ _ d0 (by simpa using hmade) hfaith)

/-! ## A parent made by an earlier backup -/

theorem reuse_len (hc : Chunk.Contract cut) {F : Forest Id} (d : Dir Bytes) :
    ∀ pt : Option (Tree Id), Fits d → Reuse (Exact C cut) F pt d →
      Reuse (fun cs x => Exact C cut cs x ∧ cs.length < 2 ^ 64) F pt d := by
  induction d with
  | nil => intro _ _ _; trivial
  | leaf n md l r ih =>
    intro pt hf h
    refine ⟨fun x cs m h1 h2 h3 => ?_, ih _ hf.2.2.2 h.2⟩
    have he := h.1 x cs m h1 h2 h3
    refine ⟨he, ?_⟩
    subst h1
    rw [he, List.length_map]
    exact lt_of_le_of_lt (chunks_few hc _ x) hf.2.2.1
  | dir n md s r ihs ih => intro pt hf h; exact ⟨ihs _ hf.2.2.2.1 h.1, ih _ hf.2.2.2.2 h.2⟩

theorem kinds_keep (filter : Path → Bool) {d : Dir Bytes} (h : d.KindsOk) :
    ∀ pathOf : Name → Path, (keep filter pathOf d).KindsOk := by
  induction d with
  | nil => intro _; trivial
  | leaf n md l r ih =>
    intro pathOf
    unfold keep
    cases l with
    | other => rw [if_pos (.inr rfl)]; exact ih h.2 _
    | file x => split <;> first | exact ih h.2 _ | exact ⟨h.1, ih h.2 _⟩
    | link x => split <;> first | exact ih h.2 _ | exact ⟨h.1, ih h.2 _⟩
  | dir n md s r ihs ih =>
    intro pathOf
    unfold keep
    split
    · exact ih h.2.2 _
    · exact ⟨h.1, ihs h.2.1 _, ih h.2.2 _⟩

theorem kinds_putLeaf {n : Name} {md : Meta} {l : Leaf Bytes} {d : Dir Bytes}
    (h1 : (Dir.leaf n md l .nil).KindsOk) (h : d.KindsOk) : (d.putLeaf n md l).KindsOk := by
  have hl : ∀ r : Dir Bytes, r.KindsOk → (Dir.leaf n md l r).KindsOk := by
    intro r hr
    cases l <;> exact ⟨h1.1, hr⟩
  induction d with
  | nil => exact h1
  | leaf n' md' l' r ih =>
    unfold Dir.putLeaf
    have hr : r.KindsOk := by cases l' <;> exact h.2
    have hput : (Dir.leaf n' md' l' (r.putLeaf n md l)).KindsOk := by
      cases l' <;> exact ⟨h.1, ih hr⟩
    split
    · exact hl _ h
    · split
      · exact hl _ hr
      · exact hput
  | dir n' md' s r _ ih =>
    unfold Dir.putLeaf
    split
    · exact hl _ h
    · split
      · exact hl _ h.2.2
      · exact ⟨h.1, h.2.1, ih h.2.2⟩

theorem kinds_putDir {n : Name} {md : Meta} {s d : Dir Bytes}
    (h1 : md.kind = .dir) (h2 : s.KindsOk) (h : d.KindsOk) : (Dir.putDir n md s d).KindsOk := by
  induction d with
  | nil => exact ⟨h1, h2, trivial⟩
  | leaf n' md' l' r ih =>
    unfold Dir.putDir
    have hr : r.KindsOk := by cases l' <;> exact h.2
    split
    · exact ⟨h1, h2, h⟩
    · split
      · exact ⟨h1, h2, hr⟩
      · cases l' <;> exact ⟨h.1, ih hr⟩
  | dir n' md' s' r _ ih =>
    unfold Dir.putDir
    split
    · exact ⟨h1, h2, h⟩
    · split
      · exact ⟨h1, h2, h.2.2⟩
      · exact ⟨h.1, h.2.1, ih h.2.2⟩

theorem kinds_putAll {d : Dir Bytes} (h : d.KindsOk) : ∀ acc : Dir Bytes, acc.KindsOk →
    (putAll acc d).KindsOk := by
  induction d with
  | nil => intro acc ha; exact ha
  | leaf n md l r ih =>
    intro acc ha
    unfold putAll
    have hr : r.KindsOk := by cases l <;> exact h.2
    refine ih hr _ (kinds_putLeaf ?_ ha)
    cases l <;> exact ⟨h.1, trivial⟩
  | dir n md s r _ ih =>
    intro acc ha
    exact ih h.2.2 _ (kinds_putDir h.1 h.2.1 ha)

theorem rel_nodes {PF : List Id → Bytes → Prop} {PT : Id → Tree Id → Prop} {t : Tree Id} {d : Dir Bytes}
    (h : DirRel PF PT t d) (hk : d.KindsOk) : ∀ e ∈ t, e.2.md.kind = e.2.contents.kind := by
  induction h with
  | nil => intro e he; cases he
  | file _ _ ih =>
    intro e he
    rcases List.mem_cons.mp he with rfl | he
    · exact hk.1
    · exact ih hk.2 e he
  | link _ ih =>
    intro e he
    rcases List.mem_cons.mp he with rfl | he
    · exact hk.1
    · exact ih hk.2 e he
  | dir _ _ _ _ ih =>
    intro e he
    rcases List.mem_cons.mp he with rfl | he
    · exact hk.1
    · exact ih hk.2.2 e he

theorem rel_dir {PF : List Id → Bytes → Prop} {PT : Id → Tree Id → Prop} {t : Tree Id} {d : Dir Bytes}
    (h : DirRel PF PT t d) (hk : d.KindsOk) {n : Name} {id : Id} {md : Meta}
    (hm : (n, (⟨.dir id, md⟩ : Node Id)) ∈ t) : ∃ u s, PT id u ∧ DirRel PF PT u s ∧ s.KindsOk := by
  induction h with
  | nil => cases hm
  | file _ _ ih =>
    rcases List.mem_cons.mp hm with h | h
    · cases h
    · exact ih hk.2 h
  | link _ ih =>
    rcases List.mem_cons.mp hm with h | h
    · cases h
    · exact ih hk.2 h
  | dir h0 h1 _ _ ih =>
    rcases List.mem_cons.mp hm with h | h
    · cases h; exact ⟨_, _, h0, h1, hk.2.1⟩
    · exact ih hk.2.2 h

theorem reach_nodes {R : Repo Id} (hS : Sound C R) {PF : List Id → Bytes → Prop} {root id : Id}
    (hr : Reaches (TreeAt C R) root id) : ∀ {t : Tree Id} {d : Dir Bytes}, TreeAt C R root t →
      DirRel PF (TreeAt C R) t d → d.KindsOk → ∀ u, TreeAt C R id u →
      ∀ e ∈ u, e.2.md.kind = e.2.contents.kind := by
  induction hr with
  | refl =>
    intro t d ht hd hk u hu
    rw [hS.treeAt_one hu ht]
    exact rel_nodes hd hk
  | step h1 h2 _ ih =>
    intro t d ht hd hk u hu
    rw [hS.treeAt_one h1 ht] at h2
    obtain ⟨v, s, h3, h4, h5⟩ := rel_dir hd hk h2
    exact ih h3 h4 h5 u hu

/-- A parent that an earlier backup of `d0` made, loaded from a repository with the blobs that
backup offered: it stands for the entries of `d0` that backup kept, and its nodes are
consistent. (The earlier backup may have been incremental itself.) -/
theorem parent_made {R : Repo Id} {src : Source Id} (hc : Chunk.Contract cut) (hS : Sound C R)
    (ho : Opens R src) (filter₀ : Path → Bool) (F₀ F cache cache' : Forest Id) (pathOf : Name → Path)
    (prev₀ : Option Id) (d0 : Dir Bytes) (root₀ : Id) (L : List (Blob Id))
    (hfit : Fits (keep filter₀ pathOf d0)) (hlen : (keep filter₀ pathOf d0).names.length < 2 ^ 64)
    (hsub : SubsSorted d0) (hk : d0.KindsOk)
    (hre : Reuse (Exact C cut) F₀ (prev₀.bind (fun id => F₀.get? id)) (keep filter₀ pathOf d0))
    (hb : backupBlobs C cut filter₀ F₀ pathOf prev₀ d0 = .ok (root₀, L))
    (hhas : ∀ b ∈ L, Has C R b) (hcache : CacheOk C R cache)
    (hf : forestFromRoot C src root₀ cache = .ok (F, cache')) :
    (∃ t, F.get? root₀ = some t ∧ MadeFrom C cut F t (arrange (keep filter₀ pathOf d0))) ∧ NodesOk F := by
  have hex := C23.forest_exact hS ho root₀ cache F cache' hcache hf
  obtain ⟨t, h1, h2, h3, h4⟩ := backup_rel (PF := Exact C cut) (PT := TreeAt C R) hc
    (fun x _ => rfl) (fun t ht hL => ⟨ht, rfl, hL.imp id (fun h => hhas _ h)⟩) hfit hlen hsub
    (reuse_len hc _ _ hfit hre) hb
  have hroot : TreeAt C R root₀ t := ⟨h1, h2.symm, h3.imp id (fun h => by rw [h2]; exact hhas _ h)⟩
  have hka : (arrange (keep filter₀ pathOf d0)).KindsOk := kinds_putAll (kinds_keep _ hk _) _ trivial
  refine ⟨⟨t, (hex _ _).mpr ⟨.refl, hroot⟩, ?_⟩, ?_⟩
  · exact rel_in_forest (fun id u hr hu => (hex id u).mpr ⟨hr, hu⟩) h4
      (fun x hx => reaches_sub .refl hroot hx)
  · intro id u hu n x hx
    obtain ⟨hr, hu⟩ := (hex id u).mp hu
    exact reach_nodes hS hr hroot h4 hka u hu (n, x) (BMap.mem_of_get? hx)

/-- Two backups in a row: if every file that looks unmodified at the second has the bytes it had
at the first, the second gives the tree a full backup gives, and fails only if that fails. -/
theorem second_backup {R : Repo Id} {src : Source Id} (hc : Chunk.Contract cut) (hS : Sound C R)
    (ho : Opens R src) (filter₀ : Path → Bool) (F cache' : Forest Id) (pathOf : Name → Path)
    (d0 d : Dir Bytes) (root₀ root : Id) (s₀ s₀' s₁ s₂ : Sends Id)
    (hfit : Fits (keep filter₀ pathOf d0)) (hlen : (keep filter₀ pathOf d0).names.length < 2 ^ 64)
    (hsub : SubsSorted d0) (hk : d0.KindsOk)
    (hb : backupTree C cut filter₀ [] pathOf none d0 s₀ = .ok (root₀, s₀'))
    (hhas : ∀ L, backupBlobs C cut filter₀ [] pathOf none d0 = .ok (root₀, L) → ∀ b ∈ L, Has C R b)
    (hf : forestFromRoot C src root₀ (newTreeCache C) = .ok (F, cache'))
    (hsz : Sized (keep filter pathOf d))
    (hfaith : Faithful (arrange (keep filter₀ pathOf d0)) (keep filter pathOf d)) :
    (∃ s', backupTree C cut filter F pathOf (some root₀) d s₁ = .ok (root, s')) ↔
    ∃ s', backupTree C cut filter [] pathOf none d s₂ = .ok (root, s') := by
  obtain ⟨L, hL⟩ := backup_root.mp ⟨_, hb⟩
  obtain ⟨⟨t, h1, h2⟩, h3⟩ := parent_made hc hS ho filter₀ [] F (newTreeCache C) cache' pathOf none d0 root₀
    L hfit hlen hsub hk (reuse_none _ _ _) hL (hhas L hL) newTreeCache_ok hf
  refine incremental_is_full_of_parent F pathOf root₀ _ d s₁ s₂ root h3 hsz ?_ hfaith
  intro t' ht'
  rw [h1] at ht'
  cases ht'
  exact h2

/-! ## Modified files are read again -/

theorem walk_reread {F : Forest Id} {L : List (Blob Id)} (d : Dir Bytes) :
    ∀ (pathOf : Name → Path) (pt : Option (Tree Id)) (t t' : Tree Id) (l l' : List (Blob Id)),
    walkFs (noteVisitor C cut) filter F pathOf pt d t l = .ok (t', l') → (∀ b ∈ l', b ∈ L) →
    Reread (Chunk.chunkFile C.hash cut) F L pt (keep filter pathOf d) := by
  induction d with
  | nil => intro _ _ _ _ _ _ _ _; trivial
  | leaf n md lf rest ih =>
    intro pathOf pt t t' l l' h hL
    unfold walkFs at h
    by_cases hfil : filter (pathOf n) = false
    · rw [if_pos hfil] at h
      rw [keep, if_pos (.inl hfil)]
      exact ih _ _ _ _ _ _ h hL
    · rw [if_neg hfil] at h
      simp only at h
      cases lf with
      | other => rw [keep, if_pos (.inr rfl)]; exact ih _ _ _ _ _ _ h hL
      | link tgt =>
        rw [keep, if_neg (by simp [hfil])]
        simp only at h
        split at h
        · cases h
        · exact ⟨fun x hx => (by cases hx), ih _ _ _ _ _ _ h hL⟩
      | file x =>
        rw [keep, if_neg (by simp [hfil])]
        simp only at h
        split at h
        · cases h
        · split at h
          · cases h
          · rename_i ch hch _ i' s' hv
            refine ⟨?_, ih _ _ _ _ _ _ h hL⟩
            intro y hy hmod b hb
            cases hy
            cases ch with
            | true =>
              obtain ⟨_, _, hs⟩ := visit_changed hv
              refine walk_subset h hL b ?_
              rw [hs]
              exact List.mem_append_right _ hb
            | false =>
              obtain ⟨cs, m, hp, hun⟩ := fileChanged_false hch
              exact absurd hun (hmod cs m hp)
  | dir n md sub rest ihs ih =>
    intro pathOf pt t t' l l' h hL
    unfold walkFs at h
    by_cases hfil : filter (pathOf n) = false
    · rw [if_pos hfil] at h
      rw [keep, if_pos hfil]
      exact ih _ _ _ _ _ _ h hL
    · rw [if_neg hfil] at h
      rw [keep, if_neg hfil]
      simp only [prevSub_eq, note_init] at h
      split at h
      · cases h
      · rename_i j s1 hs
        split at h
        · cases h
        · rename_i id s2 hf
          split at h
          · cases h
          · rename_i i' s' hv
            obtain ⟨_, rfl, rfl⟩ := visit_dir hv
            have hL2 := walk_subset h hL
            obtain ⟨_, hfin⟩ := finalize_ok hf
            have hL1 : ∀ b ∈ s1, b ∈ L := by
              rcases hfin with ⟨_, rfl⟩ | rfl
              · exact hL2
              · exact fun b hb => hL2 b (List.mem_append_left _ hb)
            exact ⟨ihs _ _ _ _ _ _ hs hL1, ih _ _ _ _ _ _ h hL⟩

/-- Whatever the parent: a kept file that is not in it as a file, or differs from it in size or
modification time, is read, and all its chunks are offered. -/
theorem modified_reread (F : Forest Id) (pathOf : Name → Path) (prevRoot : Option Id) (d : Dir Bytes)
    (root : Id) (L : List (Blob Id)) (h : backupBlobs C cut filter F pathOf prevRoot d = .ok (root, L)) :
    Reread (Chunk.chunkFile C.hash cut) F L (prevRoot.bind (fun id => F.get? id))
      (keep filter pathOf d) := by
  unfold backupBlobs walkTop at h
  split at h
  · cases h
  · rename_i i s' hw
    obtain ⟨_, hfin⟩ := finalize_ok h
    refine walk_reread d _ _ _ _ _ _ hw ?_
    rcases hfin with ⟨_, rfl⟩ | rfl
    · exact fun b hb => hb
    · exact fun b hb => List.mem_append_left _ hb

/-! ## Examples -/

/-- `dir1` is `dir0` with one file modified, one added, and one directory gone. -/
example : Sized (keep Demo.filter Demo.pathOf Demo.dir1) ∧ Demo.dir0.KindsOk ∧
    Faithful (arrange (keep Demo.filter Demo.pathOf Demo.dir0)) (keep Demo.filter Demo.pathOf Demo.dir1) := by
  have h1 : keep Demo.filter Demo.pathOf Demo.dir1 = Demo.dir1 := by decide
  have h0 : arrange (keep Demo.filter Demo.pathOf Demo.dir0) =
      (.leaf [97] (Demo.fileMd 3 5) (.file [1, 2, 3]) <|
      .leaf [98] (Demo.fileMd 3 6) (.file [1, 2, 3]) <|
      .dir [115] Demo.dirMd
        (.leaf [99] (Demo.fileMd 1 7) (.file [4]) <| .dir [101] Demo.dirMd .nil .nil) .nil) := by decide
  rw [h1, h0]
  refine ⟨?_, ?_, ?_⟩
  · simp [Demo.dir1, Sized, Demo.fileMd, Meta.size]
  · simp only [Demo.dir0, Dir.KindsOk]
    decide
  · simp [Demo.dir1, Faithful, fileAt, subAt, Unmodified, Demo.fileMd, Meta.size]
    try decide

/-- A second backup of the changed tree, against the parent loaded into a forest, sends only the
new chunks and trees, and gives the root of a full backup. -/
example : ∃ root₀ s₀ root s₁, backupTree Demo.codec Demo.cut Demo.filter [] Demo.pathOf none Demo.dir0
      ⟨[], []⟩ = .ok (root₀, s₀) ∧
    (∃ F, forestFromFs Demo.codec Demo.cut [] Demo.pathOf none
        (keep Demo.filter Demo.pathOf Demo.dir0) = .ok (root₀, F) ∧
      backupTree Demo.codec Demo.cut Demo.filter F Demo.pathOf (some root₀) Demo.dir1 ⟨s₀.packed, []⟩ =
        .ok (root, s₁)) ∧
    s₁.sent.length = 4 ∧
    ∃ s₂, backupTree Demo.codec Demo.cut Demo.filter [] Demo.pathOf none Demo.dir1 ⟨[], []⟩ =
      .ok (root, s₂) ∧ s₂.sent.length = 6 := by
  have h : (match backupTree Demo.codec Demo.cut Demo.filter [] Demo.pathOf none Demo.dir0 ⟨[], []⟩,
      forestFromFs Demo.codec Demo.cut [] Demo.pathOf none (keep Demo.filter Demo.pathOf Demo.dir0),
      backupTree Demo.codec Demo.cut Demo.filter [] Demo.pathOf none Demo.dir1 ⟨[], []⟩ with
      | .ok (root₀, s₀), .ok (root₀', F), .ok (root, s₂) =>
        (match backupTree Demo.codec Demo.cut Demo.filter F Demo.pathOf (some root₀) Demo.dir1
            ⟨s₀.packed, []⟩ with
          | .ok (root', s₁) => decide (root₀' = root₀ ∧ root' = root ∧ s₁.sent.length = 4 ∧ s₂.sent.length = 6)
          | .error _ => false)
      | _, _, _ => false) = true := by decide +kernel
  split at h
  · rename_i root₀ s₀ root₀' F root s₂ h1 h2 h3
    split at h
    · rename_i root' s₁ h4
      obtain ⟨rfl, rfl, h5, h6⟩ := of_decide_eq_true h
      exact ⟨_, s₀, _, s₁, h1, ⟨F, h2, h4⟩, h5, s₂, h3, h6⟩
    · cases h
  · cases h

end Backpak.C21
