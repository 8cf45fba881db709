import Verif.Lemmas.Diff
import Verif.Props.C31

/-!
# C38 - Diff reports exactly the differences
-/

namespace Backpak.C38

open Spec

variable {Id : Type} [LinearOrder Id] {C : Codec Id} {ids : Ids Id} {R : Repo Id} {src : Source Id}
  {F1 F2 : Forest Id} {m : Bool}

/-- Two forests that can be compared: every subtree is there, trees are proper maps, nodes agree
with their metadata on what they are, and the forests agree on the trees they share. -/
structure Comparable (F1 F2 : Forest Id) (a b : Id) : Prop where
  old : Grounded (InForest F1) a
  new : Grounded (InForest F2) b
  oldSorted : ForestSorted F1
  newSorted : ForestSorted F2
  oldKinds : NodesOk F1
  newKinds : NodesOk F2
  agree : Agree F1 F2

/-- Comparing prints, each once, exactly the lines called for by what is at each path before and
after. -/
theorem exactly {a b : Id} (h : Comparable F1 F2 a b) : ∃ L, diffForests m F1 F2 a b = .ok L ∧ L.Nodup ∧
    ∀ sg p x, (sg, p, x) ∈ L ↔ Reports m (nodeAt F1 a p) (nodeAt F2 b p) sg x := by
  obtain ⟨L, h1, h2⟩ := compareTrees_ok (m := m) h.oldSorted h.newSorted h.oldKinds h.newKinds h.agree (F1.length + 1)
    [] a b ((forest_tall h.old).mono (Nat.le_succ _)) h.new []
  refine ⟨L, h1, h2.nodup, ?_⟩
  intro sg p x
  rw [h2.mem]
  constructor
  · rintro ⟨q, hq, h⟩; rw [List.nil_append] at hq; subst hq; exact h
  · exact fun h => ⟨p, rfl, h⟩

/-- If nodes do not agree with their metadata on what they are, comparing can fail; but if it succeeds, what it
prints is exactly the same. -/
theorem exactly_if {a b : Id} (ha : Grounded (InForest F1) a) (hb : Grounded (InForest F2) b) (hF1 : ForestSorted F1)
    (hF2 : ForestSorted F2) (hA : Agree F1 F2) {L : List (DiffLine Id)} (h : diffForests m F1 F2 a b = .ok L) : L.Nodup ∧
    ∀ sg p x, (sg, p, x) ∈ L ↔ Reports m (nodeAt F1 a p) (nodeAt F2 b p) sg x := by
  obtain ⟨L', h1, h2⟩ := compareTrees_or (m := m) hF1 hF2 hA (F1.length + 1) [] a b ha hb [] L h
  rw [List.nil_append] at h1
  subst h1
  refine ⟨h2.nodup, ?_⟩
  intro sg p x
  rw [h2.mem]
  constructor
  · rintro ⟨q, hq, h⟩; rw [List.nil_append] at hq; subst hq; exact h
  · exact fun h => ⟨p, rfl, h⟩

/-- Comparing a tree with itself prints nothing. -/
theorem equal_silent {a : Id} (h : Comparable F1 F2 a a) : diffForests m F1 F2 a a = .ok [] := by
  obtain ⟨L, h1, _, h2⟩ := exactly (m := m) h
  have : L = [] := by
    refine List.eq_nil_iff_forall_not_mem.mpr ?_
    rintro ⟨sg, p, x⟩ hx
    have := (h2 _ _ _).mp hx
    rw [agree_nodeAt h.agree p h.old h.new] at this
    exact reports_same _ _ _ this
  rw [h1, this]

theorem reports_swap (o o' : Option (Node Id)) (x : Node Id) :
    Reports m o o' .plus x ↔ Reports m o' o .minus x := by
  have hsymm : ∀ y : Node Id, Replaced y x ↔ Replaced x y := by
    intro y
    constructor
    · rintro (h | ⟨h1, h2⟩)
      · exact .inl h.symm
      · by_cases h : x.contents.kind = y.contents.kind
        · exact .inr ⟨h.trans h1, h2.symm⟩
        · exact .inl h
    · rintro (h | ⟨h1, h2⟩)
      · exact .inl h.symm
      · by_cases h : y.contents.kind = x.contents.kind
        · exact .inr ⟨h.trans h1, h2.symm⟩
        · exact .inl h
  simp only [Reports, hsymm]

/-- Comparing the other way round swaps additions and removals. -/
theorem swapped {a b : Id} (h : Comparable F1 F2 a b) : ∃ L L', diffForests m F1 F2 a b = .ok L ∧
    diffForests m F2 F1 b a = .ok L' ∧
    (∀ p x, (.plus, p, x) ∈ L ↔ (.minus, p, x) ∈ L') ∧ (∀ p x, (.minus, p, x) ∈ L ↔ (.plus, p, x) ∈ L') ∧
    (∀ p, (∃ x, (.changed, p, x) ∈ L) ↔ ∃ x, (.changed, p, x) ∈ L') := by
  have h' : Comparable F2 F1 b a := ⟨h.new, h.old, h.newSorted, h.oldSorted, h.newKinds, h.oldKinds,
    fun id t1 t2 g1 g2 => (h.agree id t2 t1 g2 g1).symm⟩
  obtain ⟨L, h1, _, h2⟩ := exactly (m := m) h
  obtain ⟨L', h3, _, h4⟩ := exactly (m := m) h'
  refine ⟨L, L', h1, h3, ?_, ?_, ?_⟩
  · intro p x; rw [h2, h4, reports_swap]
  · intro p x; rw [h2, h4, reports_swap]
  · intro p
    simp only [h2, h4, Reports]
    constructor
    · rintro ⟨x, g1, y, g2, g3, g4, g5⟩; exact ⟨y, g2, x, g1, g4, g3, g5.symm⟩
    · rintro ⟨x, g1, y, g2, g3, g4, g5⟩; exact ⟨y, g2, x, g1, g4, g3, g5.symm⟩

/-- Loading two snapshots of a repository in good order gives forests that can be compared. -/
theorem comparable (hH : Healthy C ids R) {r1 r2 : Id} {d1 d2 : Dir Bytes}
    (h1 : Loaded C R F1 r1 d1) (h2 : Loaded C R F2 r2 d2) (hd1 : Holds C R r1 d1) (hd2 : Holds C R r2 d2)
    (hk1 : d1.KindsOk) (hk2 : d2.KindsOk) : Comparable F1 F2 r1 r2 :=
  ⟨h1.grounded, h2.grounded, h1.sorted, h2.sorted, h1.nodesOk hH.sound hd1 hk1, h2.nodesOk hH.sound hd2 hk2,
    loaded_agree hH.sound h1 h2⟩

/-- The entries at a path differ so that one replaces the other: one is a file and the other a
directory, say, or they are symlinks to different places. -/
def Differ (e e' : Meta × Option (Leaf Bytes)) : Prop :=
  match e.2, e'.2 with
  | some (.file _), some (.file _) => False
  | some (.link tgt), some (.link tgt') => tgt ≠ tgt'
  | none, none => False
  | _, _ => True

theorem differ_iff {PF PF' : List Id → Bytes → Prop} {x y : Node Id} {e e' : Meta × Option (Leaf Bytes)}
    (hx : NodeIs PF x e) (hy : NodeIs PF' y e') : Replaced x y ↔ Differ e e' := by
  obtain ⟨c, md⟩ := x
  obtain ⟨c', md'⟩ := y
  obtain ⟨em, l⟩ := e
  obtain ⟨em', l'⟩ := e'
  rcases c <;> rcases l with _ | _ | _ | _ <;> first | exact hx.elim | skip
  all_goals rcases c' <;> rcases l' with _ | _ | _ | _ <;> first | exact hy.elim | skip
  all_goals simp only [NodeIs] at hx hy
  all_goals simp_all [Replaced, Differ, Contents.kind]

/-- If comparing two snapshots of a repository in good order succeeds, it has reported all there is: a path is printed with
`+` if and only if it is in the second and is not in the first, or is something else or a different symlink there; with `-`,
the other way round. If it is a file in both, with different bytes, it is printed with `C`, and it is printed so only if it is
a file in both. -/
theorem complete (hH : Healthy C ids R) (ho : Opens R src) {s1 s2 : Snapshot Id} {d1 d2 : Dir Bytes}
    (hd1 : Holds C R s1.tree d1) (hd2 : Holds C R s2.tree d2) {L : List (DiffLine Id)}
    (h : diffSnapshots C src m s1 s2 = .ok L) : L.Nodup ∧
      (∀ p, (∃ x, (.plus, p, x) ∈ L) ↔ ∃ e, entry d2 p = some e ∧ ∀ e', entry d1 p = some e' → Differ e' e) ∧
      (∀ p, (∃ x, (.minus, p, x) ∈ L) ↔ ∃ e, entry d1 p = some e ∧ ∀ e', entry d2 p = some e' → Differ e e') ∧
      (∀ p md1 md2 x1 x2, entry d1 p = some (md1, some (.file x1)) → entry d2 p = some (md2, some (.file x2)) →
        x1 ≠ x2 → ∃ x, (.changed, p, x) ∈ L) ∧
      (∀ p x, (.changed, p, x) ∈ L → ∃ md1 md2 x1 x2, entry d1 p = some (md1, some (.file x1)) ∧
        entry d2 p = some (md2, some (.file x2))) := by
  obtain ⟨F1, cache, g1, l1, hc⟩ := load_from hH.sound ho hd1 newTreeCache_ok
  obtain ⟨F2, cache', g2, l2, _⟩ := load_from hH.sound ho hd2 hc
  simp only [diffSnapshots, g1, g2] at h
  obtain ⟨h2, h3⟩ := exactly_if l1.grounded l2.grounded l1.sorted l2.sorted (loaded_agree hH.sound l1 l2) h
  refine ⟨h2, ?_, ?_, ?_, ?_⟩
  · intro p
    simp only [h3, Reports]
    rcases l2.entry_rel p with ⟨a1, a2⟩ | ⟨y, e, a1, a2, a3⟩
    · simp [a1, a2]
    · rcases l1.entry_rel p with ⟨b1, b2⟩ | ⟨x, e', b1, b2, b3⟩
      · simp [a1, a2, b1, b2]
      · simp [a1, a2, b1, b2, differ_iff b3 a3]
  · intro p
    simp only [h3, Reports]
    rcases l1.entry_rel p with ⟨a1, a2⟩ | ⟨y, e, a1, a2, a3⟩
    · simp [a1, a2]
    · rcases l2.entry_rel p with ⟨b1, b2⟩ | ⟨x, e', b1, b2, b3⟩
      · simp [a1, a2, b1, b2]
      · simp [a1, a2, b1, b2, differ_iff a3 b3]
  · intro p md1 md2 x1 x2 e1 e2 hne
    simp only [h3, Reports]
    rcases l1.entry_rel p with ⟨a1, a2⟩ | ⟨⟨c, md⟩, e, a1, a2, a3⟩
    · rw [e1] at a2; cases a2
    · rcases l2.entry_rel p with ⟨b1, b2⟩ | ⟨⟨c', md'⟩, e', b1, b2, b3⟩
      · rw [e2] at b2; cases b2
      · rw [e1] at a2; rw [e2] at b2
        cases a2; cases b2
        cases c with
        | dir _ => exact a3.elim
        | link _ => exact a3.elim
        | file cs =>
          cases c' with
          | dir _ => exact b3.elim
          | link _ => exact b3.elim
          | file cs' =>
            refine ⟨_, a1, _, b1, rfl, rfl, ?_⟩
            intro he
            cases he
            exact hne (fileHolds_one hH.sound a3.2 b3.2)
  · intro p x hx
    obtain ⟨r1, y, r2, r3, r4, _⟩ := (h3 _ _ _).mp hx
    rcases l1.entry_rel p with ⟨a1, a2⟩ | ⟨x', ⟨em, l⟩, a1, a2, a3⟩
    · rw [r1] at a1; cases a1
    · rcases l2.entry_rel p with ⟨b1, b2⟩ | ⟨y', ⟨em', l'⟩, b1, b2, b3⟩
      · rw [r2] at b1; cases b1
      · rw [r1] at a1; rw [r2] at b1
        cases a1; cases b1
        obtain ⟨c, md⟩ := x
        obtain ⟨c', md'⟩ := y
        rcases c <;> first | cases r3 | skip
        rcases c' <;> first | cases r4 | skip
        rcases l with _ | _ | _ | _ <;> first | exact a3.elim | skip
        rcases l' with _ | _ | _ | _ <;> first | exact b3.elim | skip
        exact ⟨_, _, _, _, a2, b2⟩

/-- Comparing two snapshots of a repository in good order succeeds, unless a node does not agree with its metadata on what it
is. A path is printed with `+` if
and only if it is in the second and is not in the first, or is something else or a different
symlink there; with `-`, the other way round. If it is a file in both, with different bytes, it is
printed with `C`, and it is printed so only if it is a file in both. -/
theorem snapshots (hH : Healthy C ids R) (ho : Opens R src) {s1 s2 : Snapshot Id} {d1 d2 : Dir Bytes}
    (hd1 : Holds C R s1.tree d1) (hd2 : Holds C R s2.tree d2) (hk1 : d1.KindsOk) (hk2 : d2.KindsOk) :
    ∃ L, diffSnapshots C src m s1 s2 = .ok L ∧ L.Nodup ∧
      (∀ p, (∃ x, (.plus, p, x) ∈ L) ↔ ∃ e, entry d2 p = some e ∧ ∀ e', entry d1 p = some e' → Differ e' e) ∧
      (∀ p, (∃ x, (.minus, p, x) ∈ L) ↔ ∃ e, entry d1 p = some e ∧ ∀ e', entry d2 p = some e' → Differ e e') ∧
      (∀ p md1 md2 x1 x2, entry d1 p = some (md1, some (.file x1)) → entry d2 p = some (md2, some (.file x2)) →
        x1 ≠ x2 → ∃ x, (.changed, p, x) ∈ L) ∧
      (∀ p x, (.changed, p, x) ∈ L → ∃ md1 md2 x1 x2, entry d1 p = some (md1, some (.file x1)) ∧
        entry d2 p = some (md2, some (.file x2))) := by
  obtain ⟨F1, cache, g1, l1, hc⟩ := load_from hH.sound ho hd1 newTreeCache_ok
  obtain ⟨F2, cache', g2, l2, _⟩ := load_from hH.sound ho hd2 hc
  obtain ⟨L, h1, _⟩ := exactly (m := m) (comparable hH l1 l2 hd1 hd2 hk1 hk2)
  have hL : diffSnapshots C src m s1 s2 = .ok L := by simp only [diffSnapshots, g1, g2, h1]
  exact ⟨L, hL, complete hH ho hd1 hd2 hL⟩

/-! ## Example -/

/-- Before: a file, a directory and a symlink. -/
def tree1 : Tree ObjectId :=
  [([97], ⟨.file [Demo.chunkA.id], Demo.fileMd 3 5⟩), ([100], ⟨.dir Demo.treeB.id, Demo.dirMd⟩),
   ([108], ⟨.link (ascii "/etc"), Demo.linkMd⟩)]

/-- After: the file has changed, the directory has become a file, the symlink leads elsewhere and
there is a new directory. -/
def tree2 : Tree ObjectId :=
  [([97], ⟨.file [Demo.chunkB.id], Demo.fileMd 3 6⟩), ([100], ⟨.file [Demo.chunkA.id], Demo.fileMd 3 5⟩),
   ([108], ⟨.link (ascii "/usr"), Demo.linkMd⟩), ([110], ⟨.dir Demo.treeB.id, Demo.dirMd⟩)]

def snap1 : Snapshot ObjectId := Demo.snapOf (Demo.treeBlob tree1) 1
def snap2 : Snapshot ObjectId := Demo.snapOf (Demo.treeBlob tree2) 2

def repo12 : Repo ObjectId :=
  Demo.repoOf Demo.pruneIds [[Demo.chunkA, Demo.chunkB], [Demo.treeB, Demo.treeBlob tree1, Demo.treeBlob tree2]]
    [snap1, snap2]

theorem healthy12 : Healthy Demo.codec Demo.pruneIds repo12 := Check.healthy_sound (k := 3) (by decide +kernel)

def dirB : Dir Bytes := .leaf [98] (Demo.fileMd 1 5) (.file Demo.chunkB.data) .nil

def dir1 : Dir Bytes :=
  .leaf [97] (Demo.fileMd 3 5) (.file Demo.chunkA.data) (.dir [100] Demo.dirMd dirB
    (.leaf [108] Demo.linkMd (.link (ascii "/etc")) .nil))

def dir2 : Dir Bytes :=
  .leaf [97] (Demo.fileMd 3 6) (.file Demo.chunkB.data) (.leaf [100] (Demo.fileMd 3 5) (.file Demo.chunkA.data)
    (.leaf [108] Demo.linkMd (.link (ascii "/usr")) (.dir [110] Demo.dirMd dirB .nil)))

theorem holdsA : FileHolds Demo.codec repo12 [Demo.chunkA.id] Demo.chunkA.data := by
  have := FileHolds.cons (C := Demo.codec) (R := repo12) (x := Demo.chunkA.data) (c := Demo.chunkA.id)
    (Check.has_iff.mpr (by decide +kernel)) .nil
  simpa using this

theorem holdsB : FileHolds Demo.codec repo12 [Demo.chunkB.id] Demo.chunkB.data := by
  have := FileHolds.cons (C := Demo.codec) (R := repo12) (x := Demo.chunkB.data) (c := Demo.chunkB.id)
    (Check.has_iff.mpr (by decide +kernel)) .nil
  simpa using this

theorem holdsDir : TreeAt Demo.codec repo12 Demo.treeB.id [([98], ⟨.file [Demo.chunkB.id], Demo.fileMd 1 5⟩)] :=
  ⟨Check.okTree_sound (by decide +kernel), by decide +kernel, .inr (Check.has_iff.mpr (by decide +kernel))⟩

theorem holds1 : Holds Demo.codec repo12 snap1.tree dir1 :=
  ⟨tree1, ⟨Check.okTree_sound (by decide +kernel), by decide +kernel, .inr (Check.has_iff.mpr (by decide +kernel))⟩,
    .file holdsA (.dir holdsDir (.file holdsB .nil) (.link .nil))⟩

theorem holds2 : Holds Demo.codec repo12 snap2.tree dir2 :=
  ⟨tree2, ⟨Check.okTree_sound (by decide +kernel), by decide +kernel, .inr (Check.has_iff.mpr (by decide +kernel))⟩,
    .file holdsB (.file holdsA (.link (.dir holdsDir (.file holdsB .nil) .nil)))⟩

example : Healthy Demo.codec Demo.pruneIds repo12 ∧ Opens repo12 (Check.opened repo12) ∧
    Holds Demo.codec repo12 snap1.tree dir1 ∧ Holds Demo.codec repo12 snap2.tree dir2 ∧ dir1.KindsOk ∧ dir2.KindsOk :=
  ⟨healthy12, Check.opened_opens healthy12, holds1, holds2, by
    simp only [dir1, dirB, Dir.KindsOk]; decide +kernel, by simp only [dir2, dirB, Dir.KindsOk]; decide +kernel⟩

theorem example_lines : (diffSnapshots Demo.codec (Check.opened repo12) true snap1 snap2).toOption.map
    (fun L => L.map (fun e => (e.1, e.2.1))) =
    some [(.changed, [[97]]), (.minus, [[100]]), (.minus, [[100], [98]]), (.plus, [[100]]), (.minus, [[108]]),
      (.plus, [[108]]), (.plus, [[110]]), (.plus, [[110], [98]])] := by decide +kernel

/-- A file whose metadata is that of a directory. -/
def tree3 : Tree ObjectId := [([97], ⟨.file [Demo.chunkB.id], Demo.dirMd⟩)]
def tree4 : Tree ObjectId := [([98], ⟨.file [Demo.chunkB.id], Demo.dirMd⟩)]

def snap3 : Snapshot ObjectId := Demo.snapOf (Demo.treeBlob tree3) 1
def snap4 : Snapshot ObjectId := Demo.snapOf (Demo.treeBlob tree4) 2

def repo34 : Repo ObjectId :=
  Demo.repoOf Demo.pruneIds [[Demo.chunkA, Demo.chunkB], [Demo.treeB, Demo.treeBlob tree1, Demo.treeBlob tree3,
    Demo.treeBlob tree4]] [snap1, snap3, snap4]

theorem healthy34 : Healthy Demo.codec Demo.pruneIds repo34 := Check.healthy_sound (k := 3) (by decide +kernel)

def dirOdd (n : Name) : Dir Bytes := .leaf n Demo.dirMd (.file Demo.chunkB.data) .nil

theorem holdsOdd : FileHolds Demo.codec repo34 [Demo.chunkB.id] Demo.chunkB.data := by
  have := FileHolds.cons (C := Demo.codec) (R := repo34) (x := Demo.chunkB.data) (c := Demo.chunkB.id)
    (Check.has_iff.mpr (by decide +kernel)) .nil
  simpa using this

theorem holds3 : Holds Demo.codec repo34 snap3.tree (dirOdd [97]) :=
  ⟨tree3, ⟨Check.okTree_sound (by decide +kernel), by decide +kernel, .inr (Check.has_iff.mpr (by decide +kernel))⟩,
    .file holdsOdd .nil⟩

theorem holds4 : Holds Demo.codec repo34 snap4.tree (dirOdd [98]) :=
  ⟨tree4, ⟨Check.okTree_sound (by decide +kernel), by decide +kernel, .inr (Check.has_iff.mpr (by decide +kernel))⟩,
    .file holdsOdd .nil⟩

/-- Comparing those two works, though no node agrees with its metadata: nothing is in both. -/
theorem example_odd : ¬ (dirOdd [97]).KindsOk ∧ ¬ (dirOdd [98]).KindsOk ∧
    (diffSnapshots Demo.codec (Check.opened repo34) true snap3 snap4).toOption.map (fun L => L.map (fun e => (e.1, e.2.1))) =
    some [(.minus, [[97]]), (.plus, [[98]])] := by
  refine ⟨?_, ?_, by decide +kernel⟩ <;> (simp only [dirOdd, Dir.KindsOk]; decide +kernel)

example : Healthy Demo.codec Demo.pruneIds repo34 ∧ Opens repo34 (Check.opened repo34) ∧
    Holds Demo.codec repo34 snap3.tree (dirOdd [97]) ∧ Holds Demo.codec repo34 snap4.tree (dirOdd [98]) :=
  ⟨healthy34, Check.opened_opens healthy34, holds3, holds4⟩

/-- Where such a file is in both, comparing fails. -/
theorem example_fails : (diffSnapshots Demo.codec (Check.opened repo34) true snap1 snap3).toOption = none := by decide +kernel

end Backpak.C38
