import Verif.Lemmas.Pieces
import Verif.Lemmas.WalkChunks
import Verif.Lemmas.Same
import Verif.Props.C13
import Verif.Props.C19
import Verif.Props.C21
import Verif.Lemmas.DemoPrune

/-!
# C79 - What is stored already is not stored again, wherever it is now

`Known` says that an index that counts lists every chunk of a file; `CutAt` where chunks end. The cut function is any
that keeps the sizes and looks no further ahead than the largest chunk.
-/

namespace Backpak.C79

open Spec Pipeline Chunk

section Files

variable {Id : Type} {H : Bytes → Id} {cut : Bytes → Nat}

/-- Two files that begin with the same `n` bytes begin with the same chunks, up to at most 8 MiB before. -/
theorem same_before (hc : Contract cut) (hl : LooksAhead cut) (f g : Bytes) (n : Nat) (hf : n ≤ f.length)
    (hg : n ≤ g.length) (h : f.take n = g.take n) :
    ∃ l a b, chunkFile H cut f = l ++ a ∧ chunkFile H cut g = l ++ b ∧ totalBytes l ≤ n ∧
      n < totalBytes l + 8 * 1024 * 1024 := by
  obtain ⟨l, a, b, h1, h2, h3, h4⟩ := Pieces.pieces_before hc hl f g n hf hg h
  refine ⟨l.map (Pieces.blob H), a.map (Pieces.blob H), b.map (Pieces.blob H), ?_, ?_, ?_, ?_⟩
  · rw [Pieces.chunkFile_eq, h1, List.map_append]
  · rw [Pieces.chunkFile_eq, h2, List.map_append]
  · rw [Pieces.totalBytes_blob]; exact h3
  · rw [Pieces.totalBytes_blob]; exact h4

/-- Two files that end alike, from a place where both are cut, end with the same chunks from there. -/
theorem same_after (f g : Bytes) (i j : Nat) (hf : CutAt H cut f i) (hg : CutAt H cut g j)
    (h : f.drop i = g.drop j) :
    ∃ a b l, chunkFile H cut f = a ++ l ∧ chunkFile H cut g = b ++ l ∧
      (a.flatMap Blob.data) = f.take i ∧ (b.flatMap Blob.data) = g.take j := by
  obtain ⟨a, h1, h2⟩ := Pieces.pieces_cut ((Pieces.cutAt_iff f i).mp hf)
  obtain ⟨b, h3, h4⟩ := Pieces.pieces_cut ((Pieces.cutAt_iff g j).mp hg)
  refine ⟨a.map (Pieces.blob H), b.map (Pieces.blob H), (Pieces.pieces cut (f.drop i)).map (Pieces.blob H),
    ?_, ?_, ?_, ?_⟩
  · rw [Pieces.chunkFile_eq, h1, List.map_append]
  · rw [Pieces.chunkFile_eq, h3, List.map_append, ← h]
  · rw [Pieces.flatMap_data, h2]
  · rw [Pieces.flatMap_data, h4]

/-- A part `x` of a file is replaced by `y`. If both files are cut `k` bytes after that, then all
chunks of the new file are chunks of the old one but some that follow one another, and these hold less than 8 MiB
more than `y` and the `k` bytes. -/
theorem near_the_change (hc : Contract cut) (hl : LooksAhead cut) (pre x y post : Bytes) (k : Nat)
    (hk : k ≤ post.length) (hf : CutAt H cut (pre ++ x ++ post) (pre.length + x.length + k))
    (hg : CutAt H cut (pre ++ y ++ post) (pre.length + y.length + k)) :
    ∃ l m r, chunkFile H cut (pre ++ y ++ post) = l ++ m ++ r ∧
      (∀ b ∈ l ++ r, b ∈ chunkFile H cut (pre ++ x ++ post)) ∧
      totalBytes m < 8 * 1024 * 1024 + y.length + k := by
  obtain ⟨a, h1, h2⟩ := Pieces.pieces_cut ((Pieces.cutAt_iff _ _).mp hf)
  obtain ⟨b, h3, h4⟩ := Pieces.pieces_cut ((Pieces.cutAt_iff _ _).mp hg)
  obtain ⟨l, c, d, g1, g2, g3, g4⟩ := Pieces.pieces_before hc hl (pre ++ x ++ post) (pre ++ y ++ post)
    pre.length (by simp) (by simp) (by
      rw [List.append_assoc, List.append_assoc, List.take_left, List.take_left])
  have hd : ∀ z : Bytes, (pre ++ z ++ post).drop (pre.length + z.length + k) = post.drop k := by
    intro z
    rw [← List.length_append, ← List.drop_drop, List.drop_left]
  have hb : b.flatten.length = pre.length + y.length + k := by
    rw [h4, List.length_take, List.length_append, List.length_append]
    omega
  rw [hd] at h1 h3
  obtain ⟨m, e1, e2⟩ := Pieces.shorter (g2.symm.trans h3) (by
    rw [← g2]; exact Pieces.pieces_pos _) (by omega)
  refine ⟨l.map (Pieces.blob H), m.map (Pieces.blob H), (Pieces.pieces cut (post.drop k)).map (Pieces.blob H),
    ?_, ?_, ?_⟩
  · rw [Pieces.chunkFile_eq, h3, e1, List.map_append, List.map_append]
  · intro q hq
    rw [Pieces.chunkFile_eq]
    rcases List.mem_append.mp hq with hq | hq
    · rw [g1, List.map_append]
      exact List.mem_append_left _ hq
    · rw [h1, List.map_append]
      exact List.mem_append_right _ hq
  · rw [Pieces.totalBytes_blob]
    rw [e1, List.flatten_append, List.length_append] at hb
    have : maxSize = 8 * 1024 * 1024 := by decide
    omega

end Files

variable {Id : Type} [LinearOrder Id] {C : Codec Id} {cut : Bytes → Nat} {ids : Ids Id} {cores : Nat}
  {src : Source Id} {snaps : List (Snap Id)} {a : BackupArgs} {plan : Plan Id}

/-- A chunk that a backup stores is a chunk of a file it walks, and no index that counts lists it. -/
theorem sends_new_chunks (w : World Id) (hh : Healthy C ids w.repo) (ho : Opens w.repo src)
    (hp : backupPlan C cut w src snaps a = .ok plan) (b : Blob Id) (hb : b ∈ sends plan.main)
    (hk : b.kind = .chunk) :
    (∃ x, HasFile x (keep a.filter a.pathOf a.fs) ∧ b ∈ chunkFile C.hash cut x) ∧
    ∀ p m, Listed w.repo.indexes p m → b.id ∉ m.map Entry.id := by
  refine ⟨?_, (C19.command_sends_new_once w src snaps a plan hh ho hp).2.1 b hb⟩
  obtain ⟨F, known, here, root, L, _, _, _, hbl, _, hm, _⟩ := plan_ok hp
  obtain ⟨new, h1, h2, _⟩ := offer_all L ⟨BMap.keys known ++ listedIds plan.start, []⟩
  have hs : sends plan.main = new := by
    rw [hm, h1, List.nil_append]
    split
    · exact sends_mainOf [] new
    · exact sends_mainOf here new
  rw [hs] at hb
  rcases blobs_chunks hbl b (h2.subset hb) with h | h
  · rw [h] at hk; cases hk
  · exact h

/-- Files that are known are not stored again: if every file that is walked has the bytes of a known one, wherever
that was and whatever it was called, the backup stores trees and no chunk. -/
theorem moved (w : World Id) (hh : Healthy C ids w.repo) (ho : Opens w.repo src)
    (hp : backupPlan C cut w src snaps a = .ok plan)
    (hall : ∀ x, HasFile x (keep a.filter a.pathOf a.fs) → Known C cut w.repo x) :
    ∀ b ∈ sends plan.main, b.kind = .tree := by
  intro b hb
  by_contra hk
  have hk : b.kind = .chunk := by
    cases h : b.kind with
    | chunk => rfl
    | tree => exact absurd h hk
  obtain ⟨⟨x, h1, h2⟩, h3⟩ := sends_new_chunks w hh ho hp b hb hk
  obtain ⟨p, m, h4, h5⟩ := hall x h1 b h2
  exact h3 p m h4 h5

theorem sum_sublist {l m : List Nat} (h : l.Sublist m) : l.sum ≤ m.sum := by
  induction h with
  | slnil => exact Nat.le_refl _
  | cons x _ ih => rw [List.sum_cons]; omega
  | cons_cons x _ ih => rw [List.sum_cons, List.sum_cons]; omega

omit [LinearOrder Id] in
theorem totalBytes_le {l m : List (Blob Id)} (hn : l.Nodup) (hs : ∀ b ∈ l, b ∈ m) :
    totalBytes l ≤ totalBytes m := by
  obtain ⟨l', h1, h2⟩ := List.subperm_of_subset hn hs
  unfold totalBytes
  rw [← (h1.map _).sum_eq]
  exact sum_sublist (h2.map _)

/-- If all files that are walked are known but one, in which a part `x` of a known file was replaced by `y`, and both
are cut `k` bytes after that, then the chunks that the backup stores hold less than 8 MiB more than
`y` and the `k` bytes, however long the file is. -/
theorem changed (w : World Id) (hc : Contract cut) (hl : LooksAhead cut) (hh : Healthy C ids w.repo)
    (ho : Opens w.repo src) (hp : backupPlan C cut w src snaps a = .ok plan) (pre x y post : Bytes) (k : Nat)
    (hk : k ≤ post.length) (hold : Known C cut w.repo (pre ++ x ++ post))
    (hall : ∀ z, HasFile z (keep a.filter a.pathOf a.fs) → Known C cut w.repo z ∨ z = pre ++ y ++ post)
    (hf : CutAt C.hash cut (pre ++ x ++ post) (pre.length + x.length + k))
    (hg : CutAt C.hash cut (pre ++ y ++ post) (pre.length + y.length + k)) :
    totalBytes ((sends plan.main).filter (fun b => decide (b.kind = .chunk))) <
      8 * 1024 * 1024 + y.length + k := by
  obtain ⟨l, m, r, h1, h2, h3⟩ := near_the_change hc hl pre x y post k hk hf hg
  refine lt_of_le_of_lt (totalBytes_le ?_ ?_) h3
  · exact (List.Nodup.of_map _ (C19.command_sends_new_once w src snaps a plan hh ho hp).1).filter _
  · intro b hb
    obtain ⟨hb, hkind⟩ := List.mem_filter.mp hb
    obtain ⟨⟨z, g1, g2⟩, g3⟩ := sends_new_chunks w hh ho hp b hb (of_decide_eq_true hkind)
    have hnew : ∀ z, Known C cut w.repo z → b ∉ chunkFile C.hash cut z := by
      intro z hz hbz
      obtain ⟨p, m, h4, h5⟩ := hz b hbz
      exact g3 p m h4 h5
    rcases hall z g1 with hz | rfl
    · exact absurd g2 (hnew z hz)
    · rw [h1] at g2
      rcases List.mem_append.mp g2 with g2 | g2
      · rcases List.mem_append.mp g2 with g2 | g2
        · exact absurd (h2 b (List.mem_append_left _ g2)) (hnew _ hold)
        · exact g2
      · exact absurd (h2 b (List.mem_append_right _ g2)) (hnew _ hold)

/-- A backup makes files known: when it has finished, every file it walked is, if those that look unmodified since the
parent were. And what was known stays known. -/
theorem known_after (w w' : World Id) (hB : BackupOk C cut ids w src snaps a)
    (hN : NoClash C cut ids cores w src snaps a plan) (hd : a.dryRun = false)
    (hp : backupPlan C cut w src snaps a = .ok plan)
    (hpar : ∀ F, parentForest C src (parentSnapshot a.paths snaps) = .ok F →
      Reuse (fun _ x => Known C cut w.repo x) F
        (((parentSnapshot a.paths snaps).map (·.tree)).bind (fun id => F.get? id))
        (keep a.filter a.pathOf a.fs))
    (h : Finished (C13.cfg ids cores a plan) w plan.main plan.posts w') :
    (∀ x, HasFile x (keep a.filter a.pathOf a.fs) → Known C cut w'.repo x) ∧
    ∀ x, Known C cut w.repo x → Known C cut w'.repo x := by
  have hcfg : C13.cfg ids cores a plan = liveCfg ids cores plan.start := by
    simp [C13.cfg, liveCfg, hd]
  obtain ⟨F, known, here, root, L, hF, hk, hr, hb, hoff, hm, hpost⟩ := plan_ok hp
  have hu := hN.blobs
  rw [hoff] at hu
  obtain ⟨hfresh, hall⟩ := offer_fresh hB.leftover
    (packed_iff hB.healthy.sound hB.leftover hB.opens hk hr) (offered_made hB.runs hF hb) hu
  have hmain : plan.main = mainOf here
      (L.foldl offer ⟨BMap.keys known ++ listedIds plan.start, []⟩).sent := by
    rw [hm, hd]; rfl
  have hpk := hN.packs
  have hix := hN.indexes
  rw [hmain] at hpk
  rw [hmain, sends_mainOf] at hix
  cases h with
  | mk s hs hj =>
    rw [hcfg, hmain] at hs
    obtain ⟨_, _, _, g4, g5⟩ := add_run hB.healthy hB.leftover hr hfresh hpk hix hs
    have hsame : (plan.posts.foldl (applyPost (C13.cfg ids cores a plan).ids) s.world.repo).indexes =
        s.world.repo.indexes := by
      rcases C13.posts_cases ⟨_, _, _, hpost⟩ with h | ⟨sn, _, _, h⟩ <;> rw [h] <;> rfl
    have hlisted : ∀ b, Has C s.world.repo b → ∃ p m, Listed
        (plan.posts.foldl (applyPost (C13.cfg ids cores a plan).ids) s.world.repo).indexes p m ∧
          b.id ∈ m.map Entry.id := by
      rintro b ⟨_, p, bs, h1, _, h2⟩
      rw [hsame]
      exact ⟨p, _, h1, List.mem_map.mpr ⟨_, List.mem_map.mpr ⟨b, h2, rfl⟩, rfl⟩⟩
    have hkeep : ∀ x, Known C cut w.repo x → Known C cut
        (plan.posts.foldl (applyPost (C13.cfg ids cores a plan).ids) s.world.repo) x := by
      intro x hx b hbx
      obtain ⟨p, m, h1, h2⟩ := hx b hbx
      obtain ⟨bs, h3, rfl⟩ := hB.healthy.present p m h1
      obtain ⟨e, h4, h5⟩ := List.mem_map.mp h2
      obtain ⟨b', h6, rfl⟩ := List.mem_map.mp h4
      rw [← h5]
      exact hlisted b' (g4 b' ⟨hB.healthy.hashes p bs b' h1 h3 h6, p, bs, h1, h3, h6⟩)
    refine ⟨fun x hx => ?_, hkeep⟩
    rcases reread_files (keep a.filter a.pathOf a.fs) _ (C21.modified_reread F _ _ _ _ _ hb) (hpar F hF) x hx with h | h
    · exact hkeep x h
    · intro b hbx
      refine hlisted b (g5 hj b ?_)
      rcases hall b (h b hbx) with ⟨p, bs, h1, h2⟩ | h1
      · exact .inr ⟨p, bs, h1, h2⟩
      · exact .inl h1

/-! ## What the sizes alone do not give

If no place in what follows the change makes both files be cut there, all of the rest is stored again. -/

theorem looksAhead_max : LooksAhead Demo.cut := by
  intro r r' h
  have := congrArg List.length h
  rw [List.length_take, List.length_take] at this
  unfold Demo.cut
  omega

theorem first_piece {M : Nat} {cut : Bytes → Nat} (hM : 0 < M) (hcut : ∀ r, cut r = min r.length M) (x r : Bytes)
    (hx : x.length = M) : Pieces.pieces cut (x ++ r) = x :: Pieces.pieces cut r := by
  have h : cut (x ++ r) = M := by rw [hcut, List.length_append]; omega
  rw [Pieces.pieces, dif_pos ⟨by omega, by rw [h, List.length_append]; omega⟩, h, ← hx, List.take_left, List.drop_left]

/-- A one and zeros. -/
def block (n : Nat) : Bytes := 1 :: List.replicate (n + 1) 0

/-- `k` blocks. -/
def blocks (n : Nat) : Nat → Bytes
  | 0 => []
  | k + 1 => block n ++ blocks n k

theorem pieces_blocks {n : Nat} {cut : Bytes → Nat} (hcut : ∀ r, cut r = min r.length (n + 2)) (k : Nat) :
    ∀ x ∈ Pieces.pieces cut (blocks n k), x.head? = some 1 := by
  induction k with
  | zero => rw [blocks, Pieces.pieces_nil]; intro x hx; cases hx
  | succ k ih =>
    rw [blocks, first_piece (M := n + 2) (by omega) hcut _ _ (by simp [block])]
    intro x hx
    rcases List.mem_cons.mp hx with rfl | hx
    · rfl
    · exact ih x hx

theorem pieces_shifted {n : Nat} {cut : Bytes → Nat} (hcut : ∀ r, cut r = min r.length (n + 2)) (k : Nat) :
    ∀ x ∈ Pieces.pieces cut (0 :: blocks n k), x.head? = some 0 := by
  induction k with
  | zero =>
    rw [blocks, Pieces.pieces, dif_pos ⟨by rw [hcut]; simp, by rw [hcut]; simp⟩]
    have h : cut [0] = 1 := by rw [hcut]; simp
    rw [h]
    simp only [List.take_succ_cons, List.take_zero, List.drop_succ_cons, List.drop_zero]
    rw [Pieces.pieces_nil]
    intro x hx
    rw [List.mem_singleton.mp hx]
    rfl
  | succ k ih =>
    have h : (0 :: blocks n (k + 1) : Bytes) = (0 :: 1 :: List.replicate n 0) ++ (0 :: blocks n k) := by
      simp only [blocks, block, List.replicate_succ', List.cons_append, List.append_assoc, List.nil_append]
    rw [h, first_piece (M := n + 2) (by omega) hcut _ _ (by simp)]
    intro x hx
    rcases List.mem_cons.mp hx with rfl | hx
    · rfl
    · exact ih x hx

/-- One byte in front of a file may change every chunk, however many there are: here is a cut function that keeps the
sizes and looks no further than it may, and for every number of chunks a file of which none is a chunk of
the file with one more byte in front. -/
theorem all_again {H : Bytes → Id} : Contract Demo.cut ∧ LooksAhead Demo.cut ∧ ∀ k, ∃ f : Bytes,
    f.length = k * (8 * 1024 * 1024) ∧
    ∀ b ∈ chunkFile H Demo.cut (0 :: f), b ∉ chunkFile H Demo.cut f := by
  refine ⟨Demo.cut_contract, looksAhead_max, fun k => ⟨blocks (maxSize - 2) k, ?_, fun b hb hb' => ?_⟩⟩
  · have : ∀ n, (blocks n k).length = k * (n + 2) := by
      intro n
      induction k with
      | zero => simp [blocks]
      | succ k ih => rw [blocks, List.length_append, ih, Nat.succ_mul]; simp [block]; omega
    rw [this]
    rfl
  · have hcut : ∀ r, Demo.cut r = min r.length (maxSize - 2 + 2) := fun r => rfl
    rw [Pieces.chunkFile_eq] at hb hb'
    obtain ⟨x, h1, rfl⟩ := List.mem_map.mp hb
    obtain ⟨x', h2, h3⟩ := List.mem_map.mp hb'
    have hxx : x' = x := congrArg Blob.data h3
    have e1 := pieces_shifted hcut k x h1
    have e2 := pieces_blocks hcut k x' h2
    rw [hxx, e1] at e2
    cases e2

/-! ## Examples -/

/-- The first byte of a file of more than 8 MiB is overwritten. -/
theorem cut_first {H : Bytes → Id} (c : UInt8) (post : Bytes) (h : maxSize ≤ post.length) :
    CutAt H Demo.cut ([] ++ [c] ++ post) (([] : Bytes).length + [c].length + (maxSize - 1)) := by
  have h0 : 1 ≤ maxSize := by decide
  have e : [] ++ [c] ++ post = (c :: post.take (maxSize - 1)) ++ post.drop (maxSize - 1) := by simp
  rw [Pieces.cutAt_iff, e, first_piece (M := maxSize) (cut := Demo.cut) h0 (fun _ => rfl) _ _ (by
    rw [List.length_cons, List.length_take]; omega)]
  refine ⟨[_], _, rfl, ?_⟩
  rw [List.flatten_singleton, List.length_cons, List.length_take, List.length_nil, List.length_singleton]
  omega

example (post : Bytes) (h : maxSize ≤ post.length) :
    ∃ l m r, chunkFile Demo.hash Demo.cut ([] ++ [2] ++ post) = l ++ m ++ r ∧
      (∀ b ∈ l ++ r, b ∈ chunkFile Demo.hash Demo.cut ([] ++ [1] ++ post)) ∧
      totalBytes m < 8 * 1024 * 1024 + 1 + (maxSize - 1) :=
  near_the_change Demo.cut_contract looksAhead_max [] [1] [2] post _ (by omega)
    (cut_first 1 post h) (cut_first 2 post h)

theorem known_of {R : Repo ObjectId} {x : Bytes} (h : ∀ b ∈ chunkFile Demo.codec.hash Demo.cut x,
    ∃ e ∈ Check.listed R, b.id ∈ e.2.map Entry.id) : Known Demo.codec Demo.cut R x := by
  intro b hb
  obtain ⟨e, h1, h2⟩ := h b hb
  exact ⟨e.1, e.2, Check.mem_listed.mp h1, h2⟩

theorem knownA : Known Demo.codec Demo.cut (Demo.clean Demo.repoA).repo [1, 2, 3] := known_of (by decide +kernel)

/-- The repository's file is now in a directory, under another name and with another time. -/
def argsMoved : BackupArgs := { Demo.args0 with
  paths := [[[104]]], fs := .dir [115] Demo.dirMd (.leaf [122] (Demo.fileMd 3 77) (.file [1, 2, 3]) .nil) .nil }

def planMoved : Plan ObjectId := Demo.planOf
  (backupPlan Demo.codec Demo.cut (Demo.clean Demo.repoA) (Check.opened Demo.repoA) (Demo.snapsOf Demo.repoA) argsMoved)

theorem planMoved_eq : backupPlan Demo.codec Demo.cut (Demo.clean Demo.repoA) (Check.opened Demo.repoA)
    (Demo.snapsOf Demo.repoA) argsMoved = .ok planMoved := Demo.planOf_eq (by decide +kernel)

/-- Two trees are stored for it, and nothing else. -/
example : (∀ b ∈ sends planMoved.main, b.kind = .tree) ∧ (sends planMoved.main).length = 2 := by
  refine ⟨moved (Demo.clean Demo.repoA) Demo.healthyA (Check.opened_opens Demo.healthyA) planMoved_eq ?_, by decide +kernel⟩
  have h : keep argsMoved.filter argsMoved.pathOf argsMoved.fs = argsMoved.fs := by decide +kernel
  rw [h]
  rintro x ((h | h) | h)
  · cases h; exact knownA
  · cases h
  · cases h

/-- The same with a byte of it changed. -/
def argsChanged : BackupArgs := { Demo.args0 with
  paths := [[[104]]], fs := .leaf [122] (Demo.fileMd 3 78) (.file [1, 9, 3])
    (.dir [115] Demo.dirMd (.leaf [122] (Demo.fileMd 3 77) (.file [1, 2, 3]) .nil) .nil) }

def planChanged : Plan ObjectId := Demo.planOf
  (backupPlan Demo.codec Demo.cut (Demo.clean Demo.repoA) (Check.opened Demo.repoA) (Demo.snapsOf Demo.repoA) argsChanged)

theorem planChanged_eq : backupPlan Demo.codec Demo.cut (Demo.clean Demo.repoA) (Check.opened Demo.repoA)
    (Demo.snapsOf Demo.repoA) argsChanged = .ok planChanged := Demo.planOf_eq (by decide +kernel)

example : totalBytes ((sends planChanged.main).filter (fun b => decide (b.kind = .chunk))) <
      8 * 1024 * 1024 + 1 + 1 ∧
    totalBytes ((sends planChanged.main).filter (fun b => decide (b.kind = .chunk))) = 3 := by
  refine ⟨changed (Demo.clean Demo.repoA) Demo.cut_contract looksAhead_max Demo.healthyA (Check.opened_opens Demo.healthyA) planChanged_eq
    [1] [2] [9] [3] 1 (by decide) knownA ?_ ⟨chunkFile Demo.codec.hash Demo.cut [1, 2, 3], List.prefix_refl _, ?_⟩
    ⟨chunkFile Demo.codec.hash Demo.cut [1, 9, 3], List.prefix_refl _, ?_⟩, by decide +kernel⟩
  · have h : keep argsChanged.filter argsChanged.pathOf argsChanged.fs = argsChanged.fs := by decide +kernel
    rw [h]
    rintro x (h | (h | h) | h)
    · cases h; exact .inr rfl
    · cases h; exact .inl knownA
    · cases h
    · cases h
  · decide +kernel
  · decide +kernel

/-- A backup of an empty repository, whose hypotheses `known_after` takes, makes its files known. -/
example (w' : World ObjectId) (h : Finished (C13.cfg Demo.ids 4 Demo.args0 Demo.plan0) Demo.world0 Demo.plan0.main
      Demo.plan0.posts w') : Known Demo.codec Demo.cut w'.repo [1, 2, 3] := by
  refine (known_after _ _ Demo.backupOk0 Demo.noClash0 rfl Demo.plan0_eq (fun F _ => reuse_none _ _ _) h).1 _ ?_
  have : keep Demo.args0.filter Demo.args0.pathOf Demo.args0.fs = keep Demo.filter Demo.pathOf Demo.dir0 := rfl
  rw [this]
  exact .inl rfl

end Backpak.C79
