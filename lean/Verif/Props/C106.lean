import Verif.Lemmas.DumpOut
import Verif.Props.C85

/-!
# C106 - What dump writes, and what it leaves in the file given with --output

The full claim is: `dump` writes the bytes of the file at the path, to standard output or to the file given with
`--output`, which is left with exactly what would have been printed; if it fails it has printed the start of that, and a
file given with `--output` is left with the start of that or as it was.

Missing: on a path that goes through a symlink the file is left with only the last of the things printed
(`output_is_less`, `output_is_last`); and a dump that fails where a file was given has emptied it (`failed_empties`), which is
also the start of what should be there.
-/

namespace Backpak.C106

open Spec

variable {Id : Type} [LinearOrder Id] {C : Codec Id} {ids : Ids Id} {R : Repo Id} {src bad : Source Id}
  {env env' : CacheEnv Id} {s : Snapshot Id} {d : Dir Bytes}

theorem inFile_one (old : Option Bytes) (x : Bytes) : inFile old [x] = some x := rfl

/-- What is in the file is what was written when it was last opened. -/
theorem output_is_last (old : Option Bytes) (l : List Bytes) : inFile old l = (l.getLast?).or old := by
  unfold inFile
  rcases List.eq_nil_or_concat l with rfl | ⟨l, x, rfl⟩
  · rfl
  · simp

/-- What is written is what C44 says is printed. -/
theorem as_printed (hH : Healthy C ids R) (ho : Opens R src) (he : C33.EnvOk env) (hd : Holds C R s.tree d)
    (given : List Comp) :
    written C src env s given = ((dump C src env s given).1.map Dumped.bytes, (dump C src env s given).2) :=
  written_sound hH.sound ho he given [] s.tree _ d hd newTreeCache_ok

section Printed

variable (hH : Healthy C ids R) (ho : Opens R src) (he : C33.EnvOk env) (hd : Holds C R s.tree d) (p : Path) (hp : p ≠ [])
  (hl : C44.NoLinks d p) (given : List Comp) (hg : given = p.map .normal ∨ given = .cur :: p.map .normal)

include hH ho he hd hp hl hg

/-- A file: its bytes, whichever way. -/
theorem file_written_partial {md : Meta} {x : Bytes} (hx : entry d p = some (md, some (.file x))) :
    (written C src env s given).2 = .ok () ∧ onStdout (written C src env s given).1 = x ∧
      ∀ old, inFile old (written C src env s given).1 = some x := by
  have := C44.prints_partial hH ho he hd p hp hl given hg
  unfold C44.Right at this
  rw [hx] at this
  rw [as_printed hH ho he hd, this]
  exact ⟨rfl, List.append_nil _, fun _ => rfl⟩

/-- A symlink: a line with its path and its target. -/
theorem link_written_partial {md : Meta} {tgt : Bytes} (hx : entry d p = some (md, some (.link tgt))) :
    (written C src env s given).2 = .ok () ∧
      onStdout (written C src env s given).1 = pathString p ++ ascii " -> " ++ tgt ++ ascii "\n" ∧
      ∀ old, inFile old (written C src env s given).1 = some (pathString p ++ ascii " -> " ++ tgt ++ ascii "\n") := by
  have := C44.prints_partial hH ho he hd p hp hl given hg
  unfold C44.Right at this
  rw [hx] at this
  rw [as_printed hH ho he hd, this]
  exact ⟨rfl, List.append_nil _, fun _ => rfl⟩

/-- Nothing there: nothing is printed, and a file given is left as it was. -/
theorem none_written_partial (hx : entry d p = none) :
    (∃ tag, (written C src env s given).2 = .error (.err tag)) ∧ onStdout (written C src env s given).1 = [] ∧
      ∀ old, inFile old (written C src env s given).1 = old := by
  have := C44.prints_partial hH ho he hd p hp hl given hg
  unfold C44.Right at this
  rw [hx] at this
  obtain ⟨tag, h⟩ := this
  rw [as_printed hH ho he hd, h]
  exact ⟨⟨tag, rfl⟩, rfl, fun _ => rfl⟩

/-- Whatever there is: the file given holds what would have been printed. -/
theorem output_same_partial (h : (written C src env s given).2 = .ok ()) (old : Option Bytes) :
    inFile old (written C src env s given).1 = some (onStdout (written C src env s given).1) := by
  have := C44.prints_partial hH ho he hd p hp hl given hg
  rw [as_printed hH ho he hd] at h ⊢
  have one : ∃ x, (dump C src env s given).1 = [x] := by
    unfold C44.Right at this
    split at this
    · exact ⟨_, by rw [this]⟩
    · exact ⟨_, by rw [this]⟩
    · obtain ⟨t, h1, _⟩ := this
      exact ⟨_, by rw [h1]⟩
    · obtain ⟨tag, h1⟩ := this
      simp only [h1] at h
      cases h
  obtain ⟨x, hx⟩ := one
  rw [hx]
  simp [inFile, onStdout]

end Printed

/-- The directory at a path. -/
def dirAt (d : Dir Bytes) : Path → Option (Dir Bytes)
  | [] => some d
  | n :: p =>
    match child d n with
    | some ((_, none), sub) => dirAt sub p
    | _ => none

/-- A line for each entry of a directory, in order: `p` and the name, then `/` for a directory and `-> ` and the target for
a symlink. -/
def listing (p : Bytes) : Dir Bytes → Bytes
  | .nil => []
  | .leaf n _ (.link tgt) rest => p ++ ascii "/" ++ n ++ ascii "-> " ++ tgt ++ ascii "\n" ++ listing p rest
  | .leaf n _ _ rest => p ++ ascii "/" ++ n ++ ascii "\n" ++ listing p rest
  | .dir n _ _ rest => p ++ ascii "/" ++ n ++ ascii "/\n" ++ listing p rest

theorem lines_listing {t : Tree Id} {d : Dir Bytes} (h : DirHolds C R t d) (p : Path) :
    t.flatMap (dirLine p) = listing (pathString p) d := by
  have e1 : ascii "/" = [47] := by decide
  have e2 : ascii "\n" = [10] := by decide
  have e3 : ascii "-> " = [45, 62, 32] := by decide
  have e4 : ascii "/\n" = [47, 10] := by decide
  induction h with
  | nil => rfl
  | file _ _ ih => simp only [List.flatMap_cons, ih, listing, dirLine, e1, e2, List.append_assoc, List.nil_append]
  | link _ ih => simp only [List.flatMap_cons, ih, listing, dirLine, e1, e2, e3, List.append_assoc]
  | dir _ _ _ _ ih =>
    simp only [List.flatMap_cons, ih, listing, dirLine, e1, e4, List.append_assoc, List.cons_append, List.nil_append]

theorem dump_dir (hS : Sound C R) (ho : Opens R src) (p : Path) (hp : p ≠ []) :
    ∀ (shown : Path) (id : Id) (cache : Forest Id) (d sub : Dir Bytes), Holds C R id d → CacheOk C R cache →
      dirAt d p = some sub → ∃ t, DirHolds C R t sub ∧
        dumpFrom C src env (p.map .normal) shown id cache = ([.dir (shown ++ p) t], .ok ()) := by
  induction p with
  | nil => exact absurd rfl hp
  | cons n p ih =>
    rintro shown id cache d sub ⟨t, ht, hd⟩ hc hsub
    obtain ⟨cache1, h1, hc1, _⟩ := treeRead_complete hS ho hc ht
    simp only [List.map_cons, dumpFrom, h1]
    rcases child_rel hd n with ⟨h2, h3⟩ | ⟨⟨c, md⟩, ⟨⟨md', l⟩, d'⟩, h2, h3, h4, h5⟩
    · rw [dirAt, h3] at hsub
      cases hsub
    · rw [dirAt, h3] at hsub
      cases l with
      | some l => cases hsub
      | none =>
        simp only at hsub
        cases c with
        | file cs => exact h4.elim
        | link tgt => exact h4.elim
        | dir s =>
          obtain ⟨u, h6, h7⟩ := h5 s md rfl
          simp only [h2]
          cases p with
          | nil =>
            cases hsub
            obtain ⟨cache2, h8, _⟩ := treeRead_complete hS ho hc1 h6
            exact ⟨u, h7, by simp [h8]⟩
          | cons m p =>
            obtain ⟨t', g1, g2⟩ := ih (by simp) (shown ++ [n]) s cache1 d' sub ⟨u, h6, h7⟩ hc1 hsub
            refine ⟨t', g1, ?_⟩
            simp only [List.map_cons, List.isEmpty_cons, Bool.false_eq_true, if_false]
            rw [List.map_cons] at g2
            rw [g2]
            simp

/-- A directory: its path, and a line for each of its entries. -/
theorem dir_written (hH : Healthy C ids R) (ho : Opens R src) (he : C33.EnvOk env) (hd : Holds C R s.tree d) (p : Path)
    (hp : p ≠ []) {sub : Dir Bytes} (hsub : dirAt d p = some sub) :
    (written C src env s (p.map .normal)).2 = .ok () ∧
      onStdout (written C src env s (p.map .normal)).1 =
        pathString p ++ ascii "/\n" ++ listing (pathString p) sub ∧
      ∀ old, inFile old (written C src env s (p.map .normal)).1 =
        some (pathString p ++ ascii "/\n" ++ listing (pathString p) sub) := by
  obtain ⟨t, h1, h2⟩ := dump_dir (env := env) hH.sound ho p hp [] s.tree _ d sub hd newTreeCache_ok hsub
  have h3 : dump C src env s (p.map .normal) = ([.dir p t], .ok ()) := h2
  have h4 : (Dumped.dir p t).bytes = pathString p ++ ascii "/\n" ++ listing (pathString p) sub := by
    rw [← lines_listing h1]; rfl
  rw [as_printed hH ho he hd, h3]
  rw [List.map_cons, List.map_nil, h4]
  exact ⟨rfl, List.append_nil _, fun _ => rfl⟩

/-- Whatever has become of the packs, what comes out on standard output is the start of what should; and all of it, if
the command succeeds. -/
theorem damaged_stdout (hl : Local C.decTree) (hN : NoForgery C R bad) (hS : Sound C R) (ho : Opens R src)
    (he : C33.EnvOk env') (hs : Readable C R s) (given : List Comp) :
    onStdout (written C bad env s given).1 <+: onStdout (written C src env' s given).1 ∧
      ((written C bad env s given).2 = .ok () → written C src env' s given = written C bad env s given) := by
  obtain ⟨d, hd⟩ := hs
  obtain ⟨h1, h2⟩ := written_same (env := env) hl hN hS ho he given [] s.tree _ _ d hd (Genuine.newTreeCache_true hS) newTreeCache_ok
  exact ⟨h1.flatten, h2⟩

/-- Of a file no symlink leads to, the file given holds the start, or it is as it was; and all of it, if the command
succeeds. -/
theorem damaged_output_partial (hlc : Local C.decTree) (hN : NoForgery C R bad) (hH : Healthy C ids R) (ho : Opens R src)
    (he : C33.EnvOk env') (hd : Holds C R s.tree d) (p : Path) (hp : p ≠ []) (hl : C44.NoLinks d p) {md : Meta} {x : Bytes}
    (hx : entry d p = some (md, some (.file x))) (old : Option Bytes) :
    (inFile old (written C bad env s (p.map .normal)).1 = old ∨
      ∃ y, y <+: x ∧ inFile old (written C bad env s (p.map .normal)).1 = some y) ∧
    ((written C bad env s (p.map .normal)).2 = .ok () → inFile old (written C bad env s (p.map .normal)).1 = some x) := by
  obtain ⟨h1, h2⟩ := written_same (env := env) hlc hN hH.sound ho he (p.map .normal) [] s.tree _ _ d hd
    (Genuine.newTreeCache_true hH.sound) newTreeCache_ok
  have hw : (written C src env' s (p.map .normal)).1 = [x] := by
    have := C44.prints_partial hH ho he hd p hp hl _ (.inl rfl)
    unfold C44.Right at this
    rw [hx] at this
    rw [as_printed hH ho he hd, this]
    rfl
  refine ⟨?_, fun h => ?_⟩
  · change BeginsWith (written C bad env s _).1 (written C src env' s _).1 at h1
    rw [hw] at h1
    rcases h1 with h1 | ⟨a, y, z, h1, h3, h4⟩
    · rcases List.prefix_cons_iff.mp h1 with h1 | ⟨t, h1, h3⟩
      · rw [h1]; exact .inl rfl
      · rw [List.prefix_nil.mp h3] at h1
        rw [h1]
        exact .inr ⟨x, List.prefix_rfl, rfl⟩
    · rcases List.prefix_cons_iff.mp h3 with h3 | ⟨t, h3, h5⟩
      · simp at h3
      · rw [List.prefix_nil.mp h5] at h3
        have ha : a = [] := by
          cases a with
          | nil => rfl
          | cons b a => have := congrArg List.length h3; simp at this
        subst ha
        simp only [List.nil_append, List.cons.injEq, and_true] at h3
        subst h3
        rw [h1]
        exact .inr ⟨y, h4, rfl⟩
  · have h3 := h2 h
    change written C src env' s _ = written C bad env s _ at h3
    rw [← h3, hw]
    rfl

/-! ## Where it is not so -/

/-- A file `a` and a symlink `l` to `/etc`: `dump` of `l/a` prints a line about `l` and the bytes of `a`; in the file given with
`--output` there are only the bytes of `a`. -/
theorem output_is_less :
    Healthy Demo.codec Demo.pruneIds C44.repoL ∧ Opens C44.repoL (Check.opened C44.repoL) ∧
    (Demo.pruneIds.snapId C44.snapL, C44.snapL) ∈ C44.repoL.snapshots ∧
    written Demo.codec (Check.opened C44.repoL) Demo.env C44.snapL [.normal [108], .normal [97]] =
      ([ascii "l -> /etc\n", Demo.chunkA.data], .ok ()) ∧
    onStdout [ascii "l -> /etc\n", Demo.chunkA.data] = ascii "l -> /etc\n" ++ Demo.chunkA.data ∧
    ∀ old, inFile old [ascii "l -> /etc\n", Demo.chunkA.data] = some Demo.chunkA.data :=
  ⟨C44.healthyL, Check.opened_opens C44.healthyL, C44.snapL_mem, by decide +kernel, by decide +kernel, fun _ => rfl⟩

/-- The one chunk of a file is damaged: the dump fails, and the file given, whatever it held, is empty. -/
theorem failed_empties :
    Healthy Demo.codec Demo.pruneIds Demo.repoH ∧ NoForgery Demo.codec Demo.repoH (C85.changed Demo.repoH C85.altered) ∧
    Demo.isOk (written Demo.codec (C85.changed Demo.repoH C85.altered) Demo.env Demo.snapH [.normal [104], .normal [97]]).2 =
      false ∧
    ∀ old, inFile old
      (written Demo.codec (C85.changed Demo.repoH C85.altered) Demo.env Demo.snapH [.normal [104], .normal [97]]).1 = some [] := by
  refine ⟨Demo.healthyH, C85.altered_ok, by decide +kernel, fun old => ?_⟩
  have : (written Demo.codec (C85.changed Demo.repoH C85.altered) Demo.env Demo.snapH [.normal [104], .normal [97]]).1 = [[]] := by
    decide +kernel
  rw [this]
  rfl

/-! ## Examples -/

/-- A file and a symlink, each by itself. -/
example : (onStdout (written Demo.codec (Check.opened C44.repoL) Demo.env C44.snapL [.normal [97]]).1 = Demo.chunkA.data ∧
      ∀ old, inFile old (written Demo.codec (Check.opened C44.repoL) Demo.env C44.snapL [.normal [97]]).1 = some Demo.chunkA.data) ∧
    onStdout (written Demo.codec (Check.opened C44.repoL) Demo.env C44.snapL [.normal [108]]).1 =
      pathString [[108]] ++ ascii " -> " ++ ascii "/etc" ++ ascii "\n" ∧
    ∀ old, inFile old (written Demo.codec (Check.opened C44.repoL) Demo.env C44.snapL [.normal [98]]).1 = old := by
  have hno : ∀ n : Name, C44.NoLinks (.leaf [97] (Demo.fileMd 3 5) (.file Demo.chunkA.data)
      (.leaf [108] Demo.linkMd (.link (ascii "/etc")) .nil)) [n] := by
    intro n q r md tgt h hr
    cases q with
    | nil => simp [entry]
    | cons m q =>
      cases q with
      | nil => simp only [List.singleton_append, List.cons.injEq] at h; exact absurd h.2.symm hr
      | cons k q => simp at h
  refine ⟨(file_written_partial C44.healthyL (Check.opened_opens C44.healthyL) Demo.env_ok C44.holdsL [[97]] (by simp) (hno _)
      [.normal [97]] (.inl rfl) (md := Demo.fileMd 3 5) (by decide +kernel)).2,
    (link_written_partial C44.healthyL (Check.opened_opens C44.healthyL) Demo.env_ok C44.holdsL [[108]] (by simp) (hno _)
      [.normal [108]] (.inl rfl) (md := Demo.linkMd) (by decide +kernel)).2.1,
    (none_written_partial C44.healthyL (Check.opened_opens C44.healthyL) Demo.env_ok C44.holdsL [[98]] (by simp) (hno _)
      [.normal [98]] (.inl rfl) (by decide +kernel)).2.2⟩

/-- A directory with one file. -/
example : onStdout (written Demo.codec (Check.opened Demo.repoH) Demo.env Demo.snapH [.normal [104]]).1 = ascii "h/\nh/a\n" := by
  obtain ⟨sub, hsub, he⟩ : ∃ sub, dirAt Demo.dirH [[104]] = some sub ∧
      pathString [[104]] ++ ascii "/\n" ++ listing (pathString [[104]]) sub = ascii "h/\nh/a\n" :=
    ⟨(dirAt Demo.dirH [[104]]).getD .nil, by decide +kernel, by decide +kernel⟩
  rw [← he]
  exact (dir_written Demo.healthyH (Check.opened_opens Demo.healthyH) Demo.env_ok Demo.holdsH [[104]] (by simp) hsub).2.1

/-- Where every pack ends in a read error the file is still written. -/
example : onStdout (written Demo.codec (Check.opened Demo.repoH) Demo.env Demo.snapH [.normal [104], .normal [97]]).1 = [1, 2, 3] := by
  have h : written Demo.codec (C85.changed Demo.repoH C85.longer) Demo.env Demo.snapH [.normal [104], .normal [97]] =
    ([[1, 2, 3]], .ok ()) := by decide +kernel
  rw [(damaged_stdout (env := Demo.env) C85.demo_local C85.longer_ok Demo.healthyH.sound (Check.opened_opens Demo.healthyH)
    Demo.env_ok ⟨_, Demo.holdsH⟩ _).2 (by rw [h]), h]
  rfl

end Backpak.C106
