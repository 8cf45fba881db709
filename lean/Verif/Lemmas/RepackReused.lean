import Verif.Lemmas.Reused
import Verif.Lemmas.Repack

/-!
# Lemmas about the bytes a copy or a prune counts as reused
-/

namespace Backpak

open Spec

variable {Id : Type} [LinearOrder Id] {C : Codec Id} {R : Repo Id} {src : Source Id}
  {env : CacheEnv Id} {filter : Path → Bool} {F : Forest Id}

/-! ## The counter changes nothing else -/

theorem chunks_project (cs : List Id) : ∀ st : RepackCounts Id,
    repackChunks C src env cs st.1 = (chunksCounted C src env cs st).map Prod.fst := by
  induction cs with
  | nil => intro st; rfl
  | cons c cs ih =>
    rintro ⟨⟨s, r⟩, n⟩
    simp only [repackChunks, chunksCounted]
    split
    · cases blobSize src c with
      | error e => rfl
      | ok k => exact ih ((s, r), n + k)
    · cases readBlob C.hash src env r c with
      | error e => rfl
      | ok v => exact ih ((offer s ⟨v.1, c, .chunk⟩, v.2), n)

variable {down : Path → Id → Repacking Id → Res (Id × Repacking Id)}
  {down' : Path → Id → RepackCounts Id → Res (Id × RepackCounts Id)}

theorem node_project (hd : ∀ p i st, down p i st.1 = (down' p i st).map (fun r => (r.1, r.2.1)))
    (path : Path) (x : Node Id) (st : RepackCounts Id) :
    repackNode C src env down path x st.1 =
      (nodeCounted C src env down' path x st).map (fun r => (r.1, r.2.1)) := by
  unfold repackNode nodeCounted
  cases x.contents with
  | file cs =>
    simp only
    rw [chunks_project]
    cases chunksCounted C src env cs st <;> rfl
  | link tgt => rfl
  | dir sub =>
    simp only
    rw [hd]
    cases down' path sub st <;> rfl

theorem nodes_project (hd : ∀ p i st, down p i st.1 = (down' p i st).map (fun r => (r.1, r.2.1)))
    (path : Path) (t : Tree Id) : ∀ (acc : Tree Id) (st : RepackCounts Id),
    repackNodes C src env filter down path t acc st.1 =
      (nodesCounted C src env filter down' path t acc st).map (fun r => (r.1, r.2.1)) := by
  induction t with
  | nil => intro acc st; rfl
  | cons e t ih =>
    obtain ⟨n, x⟩ := e
    intro acc st
    rw [repackNodes, nodesCounted]
    split
    · exact ih _ _
    · rw [node_project hd]
      cases nodeCounted C src env down' (path ++ [n]) x st with
      | error e => rfl
      | ok v =>
        simp only [Except.map]
        split
        · rfl
        · exact ih _ _

theorem tree_project (k : Nat) : ∀ (path : Path) (id : Id) (st : RepackCounts Id),
    repackTree C src env filter F k path id st.1 =
      (treeCounted C src env filter F k path id st).map (fun r => (r.1, r.2.1)) := by
  induction k with
  | zero => intro path id st; rfl
  | succ k ih =>
    intro path id st
    rw [repackTree, treeCounted]
    cases F.get? id with
    | none => rfl
    | some t =>
      simp only
      rw [nodes_project ih]
      cases nodesCounted C src env filter (treeCounted C src env filter F k) path t [] st with
      | error e => rfl
      | ok v =>
        obtain ⟨t', ⟨s, r⟩, n⟩ := v
        by_cases hp : C.hash (C.encTree t') ∈ s.packed
        · simp only [Except.map, if_pos hp, offer]
        · simp only [Except.map, if_neg hp]

theorem snapshots_project (sfs : List (Snap Id × Forest Id)) : ∀ st : RepackCounts Id,
    walkSnapshots C src env filter sfs st.1 =
      (snapshotsCounted C src env filter sfs st).map (fun r => (r.1, r.2.1)) := by
  induction sfs with
  | nil => intro st; rfl
  | cons e rest ih =>
    obtain ⟨s, F⟩ := e
    intro st
    rw [walkSnapshots, snapshotsCounted, tree_project]
    cases treeCounted C src env filter F (F.length + 1) [] s.1.tree st with
    | error e => rfl
    | ok v =>
      simp only [Except.map]
      rw [ih]
      cases snapshotsCounted C src env filter rest v.2 <;> rfl

/-! ## The sum -/

/-- The bytes sent and the bytes reused. -/
def repackTotal (st : RepackCounts Id) : Nat := (st.1.1.sent.map (·.data.length)).sum + st.2

theorem offer_repack {s : Sends Id} {r : ReaderState Id} {n : Nat} {b : Blob Id} (h : b.id ∉ s.packed) (r' : ReaderState Id) :
    repackTotal ((offer s b, r'), n) = repackTotal ((s, r), n) + b.data.length := by
  unfold repackTotal offer
  rw [if_neg h]
  simp only [List.map_append, List.sum_append, List.map_cons, List.map_nil, List.sum_cons, List.sum_nil]
  omega

theorem chunks_sum (he : C33.EnvOk env) (hS : Sound C R) (ho : Opens R src) {cs : List Id} {x : Bytes}
    (h : FileHolds C R cs x) : ∀ st st' : RepackCounts Id, C33.Settled C R env st.1.2 →
      chunksCounted C src env cs st = .ok st' →
      C33.Settled C R env st'.1.2 ∧ repackTotal st' = repackTotal st + x.length := by
  induction h with
  | nil => intro st st' hr h; cases h; exact ⟨hr, rfl⟩
  | @cons c x cs y hc _ ih =>
    rintro ⟨⟨s, r⟩, n⟩ st' hr h
    rw [chunksCounted] at h
    split at h
    · rw [C33.size_right hS ho c x hc] at h
      simp only at h
      obtain ⟨h1, h2⟩ := ih ((s, r), n + x.length) st' hr h
      refine ⟨h1, ?_⟩
      rw [h2, List.length_append]
      unfold repackTotal
      simp only
      omega
    · rename_i hp
      obtain ⟨r1, h5, h6⟩ := C33.read_ok he hS ho r hr c x hc
      rw [h5] at h
      simp only at h
      obtain ⟨h1, h2⟩ := ih ((offer s ⟨x, c, .chunk⟩, r1), n) st' h6 h
      refine ⟨h1, ?_⟩
      rw [h2, offer_repack (r := r) (b := ⟨x, c, .chunk⟩) hp, List.length_append]
      simp only
      omega

/-- A walk of a tree that stands for `d` goes through what is kept of `d`. -/
def GoesThrough (C : Codec Id) (R : Repo Id) (env : CacheEnv Id) (filter : Path → Bool)
    (down : Path → Id → RepackCounts Id → Res (Id × RepackCounts Id)) : Prop :=
  ∀ (path : Path) (id id' : Id) (d : Dir Bytes) (st st' : RepackCounts Id), Holds C R id d →
    C33.Settled C R env st.1.2 → down path id st = .ok (id', st') →
    C33.Settled C R env st'.1.2 ∧ ∃ t k, HashedAs C id' t ∧ TreeBytes (encodedLength C) (HashedAs C) t k ∧
      repackTotal st' = repackTotal st + fileBytes (Spec.keep filter (fun n => path ++ [n]) d) + (encodedLength C id' t + k)

theorem nodes_sum (he : C33.EnvOk env) (hS : Sound C R) (ho : Opens R src) (hd : GoesThrough C R env filter down')
    (path : Path) {t : Tree Id} {d : Dir Bytes} (h : DirHolds C R t d) :
    ∀ (acc t' : Tree Id) (k : Nat) (st st' : RepackCounts Id), TreeBytes (encodedLength C) (HashedAs C) acc k →
      C33.Settled C R env st.1.2 → nodesCounted C src env filter down' path t acc st = .ok (t', st') →
      C33.Settled C R env st'.1.2 ∧ ∃ k', TreeBytes (encodedLength C) (HashedAs C) t' (k + k') ∧
        repackTotal st' = repackTotal st + fileBytes (Spec.keep filter (fun n => path ++ [n]) d) + k' := by
  induction h with
  | nil =>
    intro acc t' k st st' hk hr h
    cases h
    exact ⟨hr, 0, hk, by simp [Spec.keep, fileBytes]⟩
  | @file n cs md t x d hx _ ih =>
    intro acc t' k st st' hk hr h
    rw [nodesCounted] at h
    by_cases hf : filter (path ++ [n]) = false
    · rw [if_pos hf] at h
      rw [Spec.keep, if_pos (.inl hf)]
      exact ih _ _ _ _ _ hk hr h
    · rw [if_neg hf] at h
      rw [Spec.keep, if_neg (by simp [hf])]
      simp only [nodeCounted] at h
      cases hc : chunksCounted C src env cs st with
      | error e => rw [hc] at h; cases h
      | ok st1 =>
        rw [hc] at h
        simp only [Except.map] at h
        split at h
        · cases h
        · rename_i hn
          obtain ⟨g1, g2⟩ := chunks_sum he hS ho hx _ _ hr hc
          obtain ⟨h1, k', h2, h3⟩ := ih _ _ _ _ _ (treeBytes_insert .file (by simpa using hn) hk) g1 h
          exact ⟨h1, k', h2, by rw [h3, g2, fileBytes]; omega⟩
  | @link n tgt md t d _ ih =>
    intro acc t' k st st' hk hr h
    rw [nodesCounted] at h
    by_cases hf : filter (path ++ [n]) = false
    · rw [if_pos hf] at h
      rw [Spec.keep, if_pos (.inl hf)]
      exact ih _ _ _ _ _ hk hr h
    · rw [if_neg hf] at h
      rw [Spec.keep, if_neg (by simp [hf])]
      simp only [nodeCounted] at h
      split at h
      · cases h
      · rename_i hn
        obtain ⟨h1, k', h2, h3⟩ := ih _ _ _ _ _ (treeBytes_insert .link (by simpa using hn) hk) hr h
        exact ⟨h1, k', h2, by rw [h3]; simp only [fileBytes]⟩
  | @dir n id md t t1 sub d ht hsub _ _ ih =>
    intro acc t' k st st' hk hr h
    rw [nodesCounted] at h
    by_cases hf : filter (path ++ [n]) = false
    · rw [if_pos hf] at h
      rw [Spec.keep, if_pos hf]
      exact ih _ _ _ _ _ hk hr h
    · rw [if_neg hf] at h
      rw [Spec.keep, if_neg hf]
      simp only [nodeCounted] at h
      cases hc : down' (path ++ [n]) id st with
      | error e => rw [hc] at h; cases h
      | ok v =>
        rw [hc] at h
        simp only [Except.map] at h
        split at h
        · cases h
        · rename_i hn
          obtain ⟨g1, t2, k2, g2, g3, g4⟩ := hd _ _ _ _ _ _ ⟨t1, ht, hsub⟩ hr hc
          obtain ⟨h1, k', h2, h3⟩ := ih _ _ _ _ _ (treeBytes_insert (.dir g2 g3) (by simpa using hn) hk) g1 h
          refine ⟨h1, encodedLength C v.1 t2 + k2 + k', by rwa [← Nat.add_assoc], ?_⟩
          rw [h3, g4, fileBytes]
          omega

theorem tree_sum (he : C33.EnvOk env) (hS : Sound C R) (ho : Opens R src)
    (hF : ∀ id t, F.get? id = some t → TreeAt C R id t) (k : Nat) :
    GoesThrough C R env filter (treeCounted C src env filter F k) := by
  induction k with
  | zero => intro path id id' d st st' _ _ h; cases h
  | succ k ih =>
    intro path id id' d st st' hd hr h
    rw [treeCounted] at h
    cases hg : F.get? id with
    | none => rw [hg] at h; cases h
    | some t =>
      rw [hg] at h
      simp only at h
      obtain ⟨t0, h0, h1⟩ := hd
      have := hS.treeAt_one h0 (hF _ _ hg)
      subst this
      cases hc : nodesCounted C src env filter (treeCounted C src env filter F k) path t0 [] st with
      | error e => rw [hc] at h; cases h
      | ok v =>
        obtain ⟨t', ⟨s, r⟩, n⟩ := v
        rw [hc] at h
        simp only at h
        obtain ⟨g1, k', g2, g3⟩ := nodes_sum he hS ho ih path h1 _ _ 0 _ _ .nil hr hc
        split at h
        · cases h
          refine ⟨g1, t', 0 + k', rfl, g2, ?_⟩
          rw [← Nat.add_assoc, Nat.zero_add, Nat.add_right_comm, ← g3]
          unfold repackTotal encodedLength
          simp only
          omega
        · rename_i hp
          cases h
          refine ⟨g1, t', 0 + k', rfl, g2, ?_⟩
          rw [offer_repack (r := r) (b := ⟨C.encTree t', C.hash (C.encTree t'), .tree⟩) hp, g3]
          simp only [encodedLength]
          omega

theorem snapshots_sum (he : C33.EnvOk env) (hS : Sound C R) (ho : Opens R src) (sfs : List (Snap Id × Forest Id)) :
    ∀ (st st' : RepackCounts Id) (news : List (Snapshot Id)), (∀ e ∈ sfs, Readable C R e.1.1) →
      (∀ e ∈ sfs, ∀ id t, e.2.get? id = some t → TreeAt C R id t) → C33.Settled C R env st.1.2 →
      snapshotsCounted C src env filter sfs st = .ok (news, st') →
      ∃ n, GoneThrough C R filter (sfs.map Prod.fst) news n ∧ repackTotal st' = repackTotal st + n := by
  induction sfs with
  | nil => intro st st' news _ _ _ h; cases h; exact ⟨0, .nil, rfl⟩
  | cons e rest ih =>
    obtain ⟨s, F⟩ := e
    intro st st' news hr hF hs h
    rw [snapshotsCounted] at h
    cases hc : treeCounted C src env filter F (F.length + 1) [] s.1.tree st with
    | error e => rw [hc] at h; cases h
    | ok v =>
      rw [hc] at h
      simp only at h
      cases hc' : snapshotsCounted C src env filter rest v.2 with
      | error e => rw [hc'] at h; cases h
      | ok u =>
        rw [hc'] at h
        cases h
        obtain ⟨d, hd⟩ := hr _ List.mem_cons_self
        obtain ⟨g1, t, k, g2, g3, g4⟩ := tree_sum he hS ho (hF _ List.mem_cons_self) _ _ _ _ _ _ _ hd hs hc
        obtain ⟨n, g5, g6⟩ := ih _ _ _ (fun e he => hr e (List.mem_cons_of_mem _ he))
          (fun e he => hF e (List.mem_cons_of_mem _ he)) g1 hc'
        refine ⟨_, .cons hd g2 g3 g5, ?_⟩
        rw [g6, g4]
        simp only [List.nil_append, encodedLength]
        omega

end Backpak
