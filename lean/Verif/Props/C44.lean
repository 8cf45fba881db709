import Verif.Model.Dump
import Verif.Lemmas.Path
import Verif.Lemmas.DemoPrune
import Verif.Props.C33

/-!
# C44 - dump prints the file at the given path

True as long as the path does not go through a symlink; then the lookup continues beside the
link. This is proved for every such path, and that it fails otherwise by an example.
-/

namespace Backpak.C44

open Spec

variable {Id : Type} [LinearOrder Id] {C : Codec Id} {ids : Ids Id} {R : Repo Id} {src : Source Id}
  {env : CacheEnv Id}

/-- What printing the entry at path `p` of `d` should do. A directory is printed as its entries. -/
def Right (C : Codec Id) (R : Repo Id) (d : Dir Bytes) (p : Path) (r : List (Dumped Id) × Res Unit)
    (shown : Path) : Prop :=
  match entry d p with
  | some (_, some (.file x)) => r = ([.file x], .ok ())
  | some (_, some (.link tgt)) => r = ([.link shown tgt], .ok ())
  | some (_, none) => ∃ t, r = ([.dir shown t], .ok ()) ∧ ∀ n,
      (BMap.get? t n = none ∧ entry d (p ++ [n]) = none) ∨
      ∃ x e, BMap.get? t n = some x ∧ entry d (p ++ [n]) = some e ∧ NodeIs (FileHolds C R) x e
  | _ => ∃ tag, r = ([], .error (.err tag))

/-- No symlink on the way. -/
def NoLinks (d : Dir Bytes) (p : Path) : Prop :=
  ∀ q r md tgt, p = q ++ r → r ≠ [] → entry d q ≠ some (md, some (.link tgt))

theorem entry_cons {d : Dir Bytes} {n : Name} {p : Path} (hp : p ≠ []) : entry d (n :: p) =
    match child d n with
    | some ((_, none), sub) => entry sub p
    | _ => none := by
  cases p with
  | nil => exact absurd rfl hp
  | cons m p => simp only [entry]; rcases child d n with _ | ⟨⟨_, _ | _⟩, _⟩ <;> rfl

theorem entry_one {d : Dir Bytes} {n : Name} : entry d [n] = (child d n).map Prod.fst := by simp [entry]

theorem dumpFrom_right (hS : Sound C R) (ho : Opens R src) (he : C33.EnvOk env) (p : Path) (hp : p ≠ []) :
    ∀ (shown : Path) (id : Id) (cache : Forest Id) (d : Dir Bytes), Holds C R id d → CacheOk C R cache →
      NoLinks d p → Right C R d p (dumpFrom C src env (p.map .normal) shown id cache) (shown ++ p) := by
  induction p with
  | nil => exact absurd rfl hp
  | cons n p ih =>
    rintro shown id cache d ⟨t, ht, hd⟩ hc hl
    obtain ⟨cache1, h1, hc1, _⟩ := treeRead_complete hS ho hc ht
    simp only [List.map_cons, dumpFrom, h1]
    rcases child_rel hd n with ⟨h2, h3⟩ | ⟨⟨c, md⟩, ⟨⟨md', l⟩, sub⟩, h2, h3, h4, h5⟩
    · simp only [h2]
      have : entry d (n :: p) = none := by
        by_cases hp' : p = []
        · subst hp'; rw [entry_one, h3]; rfl
        · rw [entry_cons hp', h3]
      unfold Right
      rw [this]
      exact ⟨_, rfl⟩
    · rw [h2]
      by_cases hp' : p = []
      · subst hp'
        have hent : entry d [n] = some (md', l) := by rw [entry_one, h3]; rfl
        unfold Right
        rw [hent]
        cases c with
        | dir s =>
          cases l with
          | some l => cases l <;> exact h4.elim
          | none =>
            obtain ⟨u, h6, h7⟩ := h5 s md rfl
            obtain ⟨cache2, h8, _⟩ := treeRead_complete hS ho hc1 h6
            refine ⟨u, by simp [h8], ?_⟩
            intro m
            rw [List.singleton_append, entry_cons (by simp), h3]
            simp only [entry_one]
            rcases child_rel h7 m with ⟨h9, h10⟩ | ⟨x, e, h9, h10, h11, _⟩
            · exact .inl ⟨h9, by rw [h10]; rfl⟩
            · exact .inr ⟨x, e.1, h9, by rw [h10]; rfl, h11⟩
        | file cs =>
          cases l with
          | none => exact h4.elim
          | some l =>
            cases l with
            | file x =>
              obtain ⟨parts, s', h6, h7, _⟩ := file_reads hS ho h4.2 env he _ C33.settled_new
              simp [h6, h7]
            | link _ => exact h4.elim
            | other => exact h4.elim
        | link tgt =>
          cases l with
          | none => exact h4.elim
          | some l =>
            cases l with
            | link tgt' => obtain ⟨_, rfl⟩ := h4; simp [dumpFrom]
            | file _ => exact h4.elim
            | other => exact h4.elim
      · have hem : (p.map Comp.normal).isEmpty = false := by cases p with
          | nil => exact absurd rfl hp'
          | cons _ _ => rfl
        cases c with
        | dir s =>
          cases l with
          | some l => cases l <;> exact h4.elim
          | none =>
            obtain ⟨u, h6, h7⟩ := h5 s md rfl
            have hl' : NoLinks sub p := by
              intro q r md1 tgt hq hr hent
              have hqne : q ≠ [] := by rintro rfl; simp [entry] at hent
              refine hl (n :: q) r md1 tgt (by rw [hq]; rfl) hr ?_
              rw [entry_cons hqne, h3]
              exact hent
            have := ih hp' (shown ++ [n]) s cache1 sub ⟨u, h6, h7⟩ hc1 hl'
            simp only [hem, Bool.false_eq_true, if_false]
            unfold Right at this ⊢
            rw [entry_cons hp', h3]
            rw [List.append_assoc] at this
            simp only [List.cons_append]
            have hrest : ∀ m, entry d (n :: (p ++ [m])) = entry sub (p ++ [m]) := by
              intro m; rw [entry_cons (by simp), h3]
            simp only [hrest]
            exact this
        | file cs =>
          cases l with
          | none => exact h4.elim
          | some l =>
            simp only [hem]
            unfold Right
            rw [entry_cons hp', h3]
            exact ⟨_, rfl⟩
        | link tgt =>
          cases l with
          | none => exact h4.elim
          | some l =>
            cases l with
            | link tgt' =>
              refine absurd ?_ (hl [n] p md' tgt' rfl hp')
              rw [entry_one, h3]; rfl
            | file _ => exact h4.elim
            | other => exact h4.elim

/-- Dumping a path of a snapshot of a repository in good order prints the entry there and nothing
else, if there is one, and otherwise fails and prints nothing; provided the path goes through no
symlink. It may be given with `./` before it. -/
theorem prints_partial (hH : Healthy C ids R) (ho : Opens R src) (he : C33.EnvOk env) {s : Snapshot Id}
    {d : Dir Bytes} (hd : Holds C R s.tree d) (p : Path) (hp : p ≠ []) (hl : NoLinks d p) (given : List Comp)
    (hg : given = p.map .normal ∨ given = .cur :: p.map .normal) : Right C R d p (dump C src env s given) p := by
  have := dumpFrom_right hH.sound ho he p hp [] s.tree _ d hd newTreeCache_ok hl
  rcases hg with rfl | rfl
  · exact this
  · exact this

/-! ## Through a symlink -/

/-- The bytes of a file, and of a directory with that file and a symlink to somewhere else. -/
def linkTree : Tree ObjectId :=
  [([97], ⟨.file [Demo.chunkA.id], Demo.fileMd 3 5⟩), ([108], ⟨.link (ascii "/etc"), Demo.linkMd⟩)]

def snapL : Snapshot ObjectId := Demo.snapOf (Demo.treeBlob linkTree) 1

def repoL : Repo ObjectId := Demo.repoOf Demo.pruneIds [[Demo.chunkA], [Demo.treeBlob linkTree]] [snapL]

theorem healthyL : Healthy Demo.codec Demo.pruneIds repoL := Check.healthy_sound (k := 2) (by decide +kernel)

theorem snapL_mem : (Demo.pruneIds.snapId snapL, snapL) ∈ repoL.snapshots := by decide +kernel

/-- `dump SNAPSHOT a` of that prints the file. -/
example : Healthy Demo.codec Demo.pruneIds repoL ∧ Opens repoL (Check.opened repoL) ∧ C33.EnvOk Demo.env ∧
    dump Demo.codec (Check.opened repoL) Demo.env snapL [.normal [97]] = ([.file Demo.chunkA.data], .ok ()) :=
  ⟨healthyL, Check.opened_opens healthyL, Demo.env_ok, by decide +kernel⟩

theorem dump_through : dump Demo.codec (Check.opened repoL) Demo.env snapL [.normal [108], .normal [97]] =
    ([.link [[108]] (ascii "/etc"), .file Demo.chunkA.data], .ok ()) := by decide +kernel

theorem holdsL : Holds Demo.codec repoL snapL.tree
    (.leaf [97] (Demo.fileMd 3 5) (.file Demo.chunkA.data) (.leaf [108] Demo.linkMd (.link (ascii "/etc")) .nil)) := by
  have htree : TreeAt Demo.codec repoL snapL.tree linkTree :=
    ⟨Check.okTree_sound (by decide +kernel), by decide +kernel, .inr (Check.has_iff.mpr (by decide +kernel))⟩
  refine ⟨linkTree, htree, .file ?_ (.link .nil)⟩
  have := FileHolds.cons (C := Demo.codec) (R := repoL) (x := Demo.chunkA.data) (c := Demo.chunkA.id)
    (Check.has_iff.mpr (by decide +kernel)) .nil
  simpa using this

/-- A snapshot holds a file `a` and a symlink `l` to `/etc`, and nothing at `l/a`; but dumping `l/a`
succeeds, and prints the file `a`. -/
theorem through_symlink :
    Healthy Demo.codec Demo.pruneIds repoL ∧ Opens repoL (Check.opened repoL) ∧
    (Demo.pruneIds.snapId snapL, snapL) ∈ repoL.snapshots ∧ (∃ d, Holds Demo.codec repoL snapL.tree d ∧
      entry d [[108], [97]] = none ∧ entry d [[97]] = some (Demo.fileMd 3 5, some (.file Demo.chunkA.data))) ∧
    dump Demo.codec (Check.opened repoL) Demo.env snapL [.normal [108], .normal [97]] =
      ([.link [[108]] (ascii "/etc"), .file Demo.chunkA.data], .ok ()) :=
  ⟨healthyL, Check.opened_opens healthyL, snapL_mem, ⟨_, holdsL, by decide +kernel, by decide +kernel⟩, dump_through⟩

end Backpak.C44
