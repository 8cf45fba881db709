import Verif.Lemmas.Check
import Verif.Lemmas.DemoPrune
import Verif.Spec.Restore
import Verif.Lemmas.Listing

/-!
# Checking what a restore needs, for examples
-/

namespace Backpak.Check

open Spec

variable {Id : Type} [LinearOrder Id]

/-- All trees that stand for a file tree, given the lists of chunks that may stand for a file. -/
def treesOf (C : Codec Id) (css : Bytes → List (List Id)) : Dir Bytes → List (Tree Id)
  | .nil => [[]]
  | .leaf n md (.file x) r => (css x).flatMap fun cs => (treesOf C css r).map fun t => (n, ⟨.file cs, md⟩) :: t
  | .leaf n md (.link tgt) r => (treesOf C css r).map fun t => (n, ⟨.link tgt, md⟩) :: t
  | .leaf _ _ .other _ => []
  | .dir n md s r => (treesOf C css s).flatMap fun u =>
      (treesOf C css r).map fun t => (n, ⟨.dir (C.hash (C.encTree u)), md⟩) :: t

theorem mem_treesOf {C : Codec Id} {css : Bytes → List (List Id)} {PF : List Id → Bytes → Prop}
    (hc : ∀ cs x, PF cs x → cs ∈ css x) {t : Tree Id} {d : Dir Bytes} (h : ByHash C PF t d) : t ∈ treesOf C css d := by
  unfold ByHash at h
  induction h with
  | nil => simp [treesOf]
  | file hx _ ih =>
    exact List.mem_flatMap.mpr ⟨_, hc _ _ hx, List.mem_map.mpr ⟨_, ih, rfl⟩⟩
  | link _ ih => exact List.mem_map.mpr ⟨_, ih, rfl⟩
  | dir h0 _ _ ih1 ih2 =>
    subst h0
    exact List.mem_flatMap.mpr ⟨_, ih1, List.mem_map.mpr ⟨_, ih2, rfl⟩⟩

/-- The trees of a repository. -/
def storedTrees (C : Codec Id) (R : Repo Id) : List (Tree Id) :=
  [] :: (blobs R).filterMap fun b => (C.decTree b.data).map Prod.fst

theorem mem_storedTrees {C : Codec Id} {R : Repo Id} {id : Id} {t : Tree Id} (h : TreeAt C R id t) :
    t ∈ storedTrees C R := by
  obtain ⟨h1, _, rfl | h3⟩ := h
  · simp [storedTrees]
  · refine List.mem_cons_of_mem _ (List.mem_filterMap.mpr ⟨_, (has_iff.mp h3).2, ?_⟩)
    rw [C.dec_enc t h1]
    rfl

/-- The lists of chunks of files of a tree. -/
def chunkLists (t : Tree Id) : List (List Id) :=
  t.filterMap fun e => match e.2.contents with
    | .file cs => some cs
    | _ => none

/-- The lists of chunks that may stand for a file. -/
def listsFor (C : Codec Id) (R : Repo Id) (cut : Bytes → Nat) (x : Bytes) : List (List Id) :=
  (Chunk.chunkFile C.hash cut x).map Blob.id :: (storedTrees C R).flatMap chunkLists

theorem mem_listsFor {C : Codec Id} {R : Repo Id} {cut : Bytes → Nat} {d : Dir Bytes} {cs : List Id} {x : Bytes}
    (h : KnownFile C R cut d cs x) : cs ∈ listsFor C R cut x := by
  rcases h with ⟨_, rfl⟩ | ⟨_, id, t, n, md, h1, h2⟩
  · exact List.mem_cons_self
  · refine List.mem_cons_of_mem _ (List.mem_flatMap.mpr ⟨t, mem_storedTrees h1, ?_⟩)
    exact List.mem_filterMap.mpr ⟨_, h2, rfl⟩

/-- The directories in a file tree. -/
def subDirs : Dir Bytes → List (Dir Bytes)
  | .nil => []
  | .leaf _ _ _ r => subDirs r
  | .dir _ _ s r => s :: (subDirs s ++ subDirs r)

theorem mem_subDirs {s d : Dir Bytes} (h : SubDir s d) : s ∈ subDirs d := by
  induction d with
  | nil => exact h.elim
  | leaf _ _ _ r ih => exact ih h
  | dir _ _ s' r ihs ih =>
    rcases h with rfl | h | h
    · exact List.mem_cons_self
    · exact List.mem_cons_of_mem _ (List.mem_append_left _ (ihs h))
    · exact List.mem_cons_of_mem _ (List.mem_append_right _ (ih h))

/-- The files in a file tree. -/
def filesOf : Dir Bytes → List Bytes
  | .nil => []
  | .leaf _ _ (.file x) r => x :: filesOf r
  | .leaf _ _ _ r => filesOf r
  | .dir _ _ s r => filesOf s ++ filesOf r

theorem mem_filesOf {x : Bytes} {d : Dir Bytes} (h : HasFile x d) : x ∈ filesOf d := by
  induction d with
  | nil => exact h.elim
  | leaf _ _ l r ih =>
    rcases h with rfl | h
    · exact List.mem_cons_self
    · cases l with
      | file y => exact List.mem_cons_of_mem _ (ih h)
      | link t => exact ih h
      | other => exact ih h
  | dir _ _ s' r ihs ih =>
    rcases h with h | h
    · exact List.mem_append_left _ (ihs h)
    · exact List.mem_append_right _ (ih h)

/-- A file tree in name order is what it has by name. -/
theorem dir_ext {a b : Dir Bytes} (ha : a.Sorted) (hb : b.Sorted) (h : ∀ n, child a n = child b n) : a = b := by
  have hnm : ∀ n, n ∈ a.names ↔ n ∈ b.names := by
    intro n
    rw [← not_iff_not, ← child_none, ← child_none, h]
  have head : ∀ {n m : Name} {r r' : List Name}, (∀ k ∈ r, n < k) → (∀ k ∈ r', m < k) →
      (∀ k, k ∈ n :: r ↔ k ∈ m :: r') → n = m := by
    intro n m r r' h1 h2 h3
    rcases List.mem_cons.mp ((h3 n).mp (by simp)) with e | e
    · exact e
    · rcases List.mem_cons.mp ((h3 m).mpr (by simp)) with e' | e'
      · exact e'.symm
      · exact absurd (lt_trans (h1 m e') (h2 n e)) (lt_irrefl _)
  have rest : ∀ {n : Name} {r r' : Dir Bytes}, (∀ k ∈ r.names, n < k) → (∀ k ∈ r'.names, n < k) →
      (∀ k, k ≠ n → child r k = child r' k) → ∀ k, child r k = child r' k := by
    intro n r r' h1 h2 h3 k
    by_cases hk : k = n
    · subst hk
      rw [child_none.mpr (fun e => lt_irrefl _ (h1 _ e)), child_none.mpr (fun e => lt_irrefl _ (h2 _ e))]
    · exact h3 k hk
  induction a generalizing b with
  | nil =>
    cases b with
    | nil => rfl
    | leaf n _ _ _ => exact absurd ((hnm n).mpr (by simp [Dir.names])) (by simp [Dir.names])
    | dir n _ _ _ => exact absurd ((hnm n).mpr (by simp [Dir.names])) (by simp [Dir.names])
  | leaf n md l r ih =>
    cases b with
    | nil => exact absurd ((hnm n).mp (by simp [Dir.names])) (by simp [Dir.names])
    | leaf m md' l' r' =>
      have := head ha.1 hb.1 hnm
      subst this
      have h0 := h n
      simp only [child, if_true, Option.some.injEq, Prod.mk.injEq, and_true] at h0
      obtain ⟨rfl, rfl⟩ := h0
      have hr := rest ha.1 hb.1 (fun k hk => by have := h k; simpa only [child, if_neg hk] using this)
      rw [ih ha.2 hb.2 hr (fun k => by rw [← not_iff_not, ← child_none, ← child_none, hr])]
    | dir m md' s' r' =>
      have := head ha.1 hb.1 hnm
      subst this
      have h0 := h n
      simp [child] at h0
  | dir n md s r _ ih =>
    cases b with
    | nil => exact absurd ((hnm n).mp (by simp [Dir.names])) (by simp [Dir.names])
    | leaf m md' l' r' =>
      have := head ha.1 hb.1 hnm
      subst this
      have h0 := h n
      simp [child] at h0
    | dir m md' s' r' =>
      have := head ha.1 hb.1 hnm
      subst this
      have h0 := h n
      simp only [child, if_true, Option.some.injEq, Prod.mk.injEq, and_true] at h0
      obtain ⟨rfl, rfl⟩ := h0
      have hr := rest ha.1 hb.1 (fun k hk => by have := h k; simpa only [child, if_neg hk] using this)
      rw [ih ha.2.2 hb.2.2 hr (fun k => by rw [← not_iff_not, ← child_none, ← child_none, hr])]

/-- All trees a restore hashes. -/
def involvedTrees (C : Codec Id) (R : Repo Id) (cut : Bytes → Nat) (d : Dir Bytes) (others : List (Dir Bytes)) :
    List (Tree Id) :=
  storedTrees C R ++ (d :: others ++ subDirs d).flatMap (treesOf C (listsFor C R cut))

theorem mem_involvedTrees {C : Codec Id} {R : Repo Id} {cut : Bytes → Nat} {d : Dir Bytes} {others : List (Dir Bytes)}
    (hd : d.Sorted) {t : Tree Id} (h : InvolvedTree C R cut d others t) : t ∈ involvedTrees C R cut d others := by
  rcases h with ⟨id, h⟩ | ⟨s, hs, _, h⟩
  · exact List.mem_append_left _ (mem_storedTrees h)
  · refine List.mem_append_right _ (List.mem_flatMap.mpr ⟨s, ?_, mem_treesOf (css := listsFor C R cut) (PF := KnownFile C R cut d) (fun _ _ h => mem_listsFor h) h⟩)
    rcases hs with hs | ⟨h1, h2⟩ | hs
    · exact List.mem_append_right _ (mem_subDirs hs)
    · rw [dir_ext h1 hd h2]
      exact List.mem_append_left _ List.mem_cons_self
    · exact List.mem_append_left _ (List.mem_cons_of_mem _ hs)

/-- No two of them hash alike. -/
theorem trees_differ {C : Codec Id} {R : Repo Id} {cut : Bytes → Nat} {d : Dir Bytes} {others : List (Dir Bytes)}
    (hd : d.Sorted) (h : ∀ t ∈ involvedTrees C R cut d others, ∀ t' ∈ involvedTrees C R cut d others,
      C.hash (C.encTree t) = C.hash (C.encTree t') → t = t') (t t' : Tree Id)
    (h1 : InvolvedTree C R cut d others t) (h2 : InvolvedTree C R cut d others t')
    (h3 : C.hash (C.encTree t) = C.hash (C.encTree t')) : t = t' :=
  h t (mem_involvedTrees hd h1) t' (mem_involvedTrees hd h2) h3

/-- Chunks there are in the repository with the same bytes. -/
theorem chunks_match {C : Codec Id} {R : Repo Id} {cut : Bytes → Nat} {d : Dir Bytes}
    (h : ∀ x ∈ filesOf d, ∀ b ∈ Chunk.chunkFile C.hash cut x, ∀ b' ∈ blobs R, b'.id = b.id → b'.data = b.data)
    (x : Bytes) (hx : HasFile x d) (b : Blob Id) (hb : b ∈ Chunk.chunkFile C.hash cut x) (z : Bytes)
    (hz : Has C R ⟨z, b.id, .chunk⟩) : z = b.data :=
  h x (mem_filesOf hx) b hb _ (has_iff.mp hz).2 rfl

end Backpak.Check

namespace Backpak.Demo

open Spec

/-- A directory with a file `a`, under the name `h`. -/
def treeH : Blob ObjectId := treeBlob [([104], ⟨.dir treeA.id, dirMd⟩)]

/-- A snapshot of `/h`. -/
def snapH : Snapshot ObjectId := ⟨1, [85], [1], [], [[[], [104]]], treeH.id⟩

def repoH : Repo ObjectId := repoOf pruneIds [[chunkA], [treeA, treeH]] [snapH]

theorem healthyH : Healthy codec pruneIds repoH := Check.healthy_sound (k := 3) (by decide +kernel)

/-- What it holds. -/
def dirH : Dir Bytes := .dir [104] dirMd (.leaf [97] (fileMd 3 5) (.file [1, 2, 3]) .nil) .nil

theorem holdsH : Holds codec repoH snapH.tree dirH := Check.dirAt_sound 3 (by decide +kernel)

/-- What is in `/h` now: `a` is a directory with a file in it, and there is another file, `z`. -/
def lookH : Look := fun p =>
  if p = [[], [104]] then
    some ((dirMd, none), .dir [97] dirMd (.leaf [98] (fileMd 2 9) (.file [7, 7]) .nil)
      (.leaf [122] (fileMd 1 8) (.file [9]) .nil))
  else none

def objOf (md : Meta) (i : Item) : Obj :=
  match md with
  | .posix m => ⟨i, m.mode % 0o10000, m.mtime⟩
  | .windows _ => ⟨i, 0, 0⟩

/-- The disk. -/
def fsH : Fs := fun p =>
  if p = [[]] then some (objOf dirMd .dir)
  else if p = [[], [104]] then some (objOf dirMd .dir)
  else if p = [[], [104], [97]] then some (objOf dirMd .dir)
  else if p = [[], [104], [97], [98]] then some (objOf (fileMd 2 9) (.file [7, 7]))
  else if p = [[], [104], [122]] then some (objOf (fileMd 1 8) (.file [9]))
  else none

/-- Restore in place. -/
def argsH (delete : Bool) : RestoreArgs := ⟨none, false, delete, true, true⟩

theorem nowH (delete : Bool) : now (argsH delete) snapH lookH =
    .dir [104] dirMd (.dir [97] dirMd (.leaf [98] (fileMd 2 9) (.file [7, 7]) .nil)
      (.leaf [122] (fileMd 1 8) (.file [9]) .nil)) .nil := by
  cases delete <;> rfl

theorem shows_obj {md : Meta} {l : Option (Leaf Bytes)} (h : ∃ m, md = .posix m) :
    Shows (some (objOf md (itemOf l))) (some (md, l)) := by
  obtain ⟨m, rfl⟩ := h
  exact ⟨rfl, fun p hp => by cases hp; rfl, fun p hp => by cases hp; rfl⟩

theorem seenH : Seen lookH fsH [[], [104]] := by
  intro q
  have hl : lookH [[], [104]] = some ((dirMd, none), .dir [97] dirMd (.leaf [98] (fileMd 2 9) (.file [7, 7]) .nil)
      (.leaf [122] (fileMd 1 8) (.file [9]) .nil)) := rfl
  rw [hl]
  rcases q with _ | ⟨a, q⟩
  · exact shows_obj (md := dirMd) (l := none) ⟨_, rfl⟩
  · by_cases ha : a = [97]
    · subst ha
      rcases q with _ | ⟨b, q⟩
      · exact shows_obj (l := none) ⟨_, rfl⟩
      · by_cases hb : b = [98]
        · subst hb
          rcases q with _ | ⟨c, q⟩
          · exact shows_obj (md := fileMd 2 9) (l := some (.file [7, 7])) ⟨_, rfl⟩
          · have : fsH ([[], [104]] ++ [97] :: [98] :: c :: q) = none := by simp [fsH]
            rw [this]
            simp [view, entry, child, Shows]
        · have : fsH ([[], [104]] ++ [97] :: b :: q) = none := by
            cases q <;> simp [fsH, hb]
          rw [this]
          cases q <;> simp [view, entry, child, hb, Shows]
    · by_cases hz : a = [122]
      · subst hz
        rcases q with _ | ⟨b, q⟩
        · exact shows_obj (md := fileMd 1 8) (l := some (.file [9])) ⟨_, rfl⟩
        · have : fsH ([[], [104]] ++ [122] :: b :: q) = none := by simp [fsH]
          rw [this]
          cases q <;> simp [view, entry, child, Shows]
      · have : fsH ([[], [104]] ++ a :: q) = none := by
          simp [fsH, ha, hz]
        rw [this]
        cases q <;> simp [view, entry, child, ha, hz, Shows]

theorem fitsH (delete : Bool) : Fits (now (argsH delete) snapH lookH) := by
  rw [nowH]
  exact ⟨by decide, okDirMd, by decide, ⟨by decide, okDirMd, by decide,
    ⟨by decide, okFileMd _ _ (by decide) (by decide), by simp [LeafFits], trivial⟩,
    by decide, okFileMd _ _ (by decide) (by decide), by simp [LeafFits], trivial⟩, trivial⟩

theorem sortedH (delete : Bool) : (now (argsH delete) snapH lookH).Sorted := by
  rw [nowH]
  exact ⟨by decide, ⟨by decide, ⟨by decide, trivial⟩, by decide, trivial⟩, trivial⟩

theorem treesH : ∀ t ∈ Check.involvedTrees codec repoH cut (now (argsH true) snapH lookH) [],
    ∀ t' ∈ Check.involvedTrees codec repoH cut (now (argsH true) snapH lookH) [],
    codec.hash (codec.encTree t) = codec.hash (codec.encTree t') → t = t' := by
  decide +kernel

theorem chunksH : ∀ x ∈ Check.filesOf (now (argsH true) snapH lookH), ∀ b ∈ Chunk.chunkFile codec.hash cut x,
    ∀ b' ∈ Check.blobs repoH, b'.id = b.id → b'.data = b.data := by
  decide +kernel

theorem datable_posix {m : PosixMeta} (ha : 0 ≤ m.atime) (hm : 0 ≤ m.mtime) : Datable (.posix m) := by
  intro t ht
  rcases ht with h | h <;> cases h
  · exact .inl ha
  · exact .inl hm

/-- Everything a restore of it needs. -/
theorem restoreOkH (delete : Bool) :
    RestoreOk codec repoH cut lookH (fun _ => false) (argsH delete) snapH dirH fsH where
  holds := holdsH
  kinds2 := ⟨rfl, ⟨rfl, trivial⟩, trivial⟩
  posix _ := ⟨⟨_, rfl⟩, ⟨⟨_, rfl⟩, trivial⟩, trivial⟩
  datable _ := ⟨datable_posix (by decide) (by decide), ⟨datable_posix (by decide) (by decide), trivial⟩, trivial⟩
  tops := by decide
  named := by decide
  distinct := by decide
  few := by decide
  apart _ := List.pairwise_singleton _ _
  present _ := by
    intro p hp
    rw [List.mem_singleton.mp hp]
    simp [lookH]
  single dst p h := by cases h
  solid dst h := by cases h
  enter := by
    intro p hp
    rw [List.mem_singleton.mp hp]
    refine ⟨by simp [dest, argsH], ?_, rfl⟩
    intro k hk
    have : k < 2 := hk
    rcases k with _ | _ | k
    · rfl
    · rfl
    · omega
  seen := by
    intro p hp
    rw [List.mem_singleton.mp hp]
    exact seenH
  plain := by rw [nowH]; exact ⟨⟨⟨by simp, trivial⟩, by simp, trivial⟩, trivial⟩
  kinds1 := by rw [nowH]; exact ⟨rfl, ⟨rfl, ⟨rfl, trivial⟩, rfl, trivial⟩, trivial⟩
  sorted := Sorted.subs (sortedH delete)
  fits := fitsH delete
  faithful := by
    rw [nowH]
    refine ⟨⟨faithful_nil _, ?_, trivial⟩, trivial⟩
    intro x m x0 _ h
    simp [dirH, subAt, fileAt] at h
  contract := cut_contract
  chunks := by
    have := Check.chunks_match chunksH
    rw [nowH] at this ⊢
    exact this
  trees := by
    have := Check.trees_differ (sortedH true) treesH
    have h2 : underOwnName (argsH delete) snapH lookH = [] := rfl
    rw [h2]
    rw [nowH] at this ⊢
    exact this

end Backpak.Demo
