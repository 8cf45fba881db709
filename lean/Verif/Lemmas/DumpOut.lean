import Verif.Model.DumpOut
import Verif.Lemmas.Genuine

/-!
# Lemmas about what `dump` writes
-/

namespace Backpak

open Spec Genuine

variable {Id : Type} [LinearOrder Id] {C : Codec Id} {R : Repo Id} {src bad : Source Id} {env env' : CacheEnv Id}

theorem fileWritten_sound (hS : Sound C R) (ho : Opens R src) (he : C33.EnvOk env) {cs : List Id} {x : Bytes}
    (h : FileHolds C R cs x) : ∀ s, C33.Settled C R env s → fileWritten C.hash src env s cs = (x, .ok ()) := by
  induction h with
  | nil => intro s _; rfl
  | @cons c x cs y hc _ ih =>
    intro s hs
    obtain ⟨s1, h1, h2⟩ := C33.read_ok he hS ho s hs c x hc
    simp only [fileWritten, h1, ih s1 h2]

/-- In a repository in good order what is written is what is printed. -/
theorem written_sound (hS : Sound C R) (ho : Opens R src) (he : C33.EnvOk env) (comps : List Comp) :
    ∀ (shown : Path) (id : Id) (cache : Forest Id) (d : Dir Bytes), Holds C R id d → CacheOk C R cache →
      writtenFrom C src env comps shown id cache =
        ((dumpFrom C src env comps shown id cache).1.map Dumped.bytes, (dumpFrom C src env comps shown id cache).2) := by
  induction comps with
  | nil => intro shown id cache d _ _; rfl
  | cons a rest ih =>
    intro shown id cache d hd hc
    cases a with
    | cur => exact ih shown id cache d hd hc
    | other => rfl
    | normal n =>
      obtain ⟨t, ht, hdt⟩ := hd
      obtain ⟨c1, g1, hc1, _⟩ := treeRead_complete hS ho hc ht
      simp only [dumpFrom, writtenFrom, g1]
      rcases child_rel hdt n with ⟨h2, _⟩ | ⟨⟨c, md⟩, ⟨⟨md', l⟩, sub⟩, h2, _, h4, h5⟩
      · simp [h2]
      · simp only [h2]
        cases c with
        | dir s =>
          obtain ⟨u, h6, h7⟩ := h5 s md rfl
          dsimp only
          by_cases hr : rest.isEmpty
          · simp only [hr, if_true]
            obtain ⟨c2, g2, _⟩ := treeRead_complete hS ho hc1 h6
            simp [g2]
          · simp only [hr]
            exact ih _ s c1 sub ⟨u, h6, h7⟩ hc1
        | link tgt =>
          dsimp only
          rw [ih (shown ++ [n]) id c1 d ⟨t, ht, hdt⟩ hc1]
          simp
        | file cs =>
          dsimp only
          by_cases hr : rest.isEmpty
          · simp only [hr, if_true]
            cases l with
            | none => exact h4.elim
            | some l =>
              cases l with
              | link _ => exact h4.elim
              | other => exact h4.elim
              | file x =>
                obtain ⟨parts, s', h6, h7, _⟩ := file_reads hS ho h4.2 env he _ C33.settled_new
                simp [h6, h7, fileWritten_sound hS ho he h4.2 _ C33.settled_new, Dumped.bytes]
          · simp [hr]

/-- A chunk that is read is the right one. -/
theorem fileWritten_genuine (hN : NoForgery C R bad) {cs : List Id} {x : Bytes} (hx : FileHolds C R cs x) :
    ∀ s, FromPacks C bad s → (fileWritten C.hash bad env s cs).1 <+: x ∧
      ((fileWritten C.hash bad env s cs).2 = .ok () → (fileWritten C.hash bad env s cs).1 = x) := by
  induction hx with
  | nil => intro s _; simp [fileWritten]
  | @cons c x cs y hc _ ih =>
    intro s hs
    rw [fileWritten]
    cases h1 : readBlob C.hash bad env s c with
    | error e => simp
    | ok v =>
      obtain ⟨z, s1⟩ := v
      obtain ⟨⟨a1, a2⟩, a3⟩ := read_fromPacks hs h1
      have hz : z = x := hN z _ a2 hc a1
      subst hz
      obtain ⟨i1, i2⟩ := ih s1 a3
      exact ⟨(List.prefix_append_right_inj z).mpr i1, fun h => by simp only at h ⊢; rw [i2 h]⟩

/-- The first of two lists of outputs is the beginning of the second: some of them, or some and the start of the next. -/
def BeginsWith (l m : List Bytes) : Prop := l <+: m ∨ ∃ a x y, l = a ++ [x] ∧ a ++ [y] <+: m ∧ x <+: y

theorem BeginsWith.cons {l m : List Bytes} (b : Bytes) (h : BeginsWith l m) : BeginsWith (b :: l) (b :: m) := by
  rcases h with h | ⟨a, x, y, rfl, h, hxy⟩
  · exact .inl ((List.prefix_cons_inj b).mpr h)
  · exact .inr ⟨b :: a, x, y, rfl, (List.prefix_cons_inj b).mpr h, hxy⟩

theorem begins_nil (m : List Bytes) : BeginsWith [] m := .inl List.nil_prefix

theorem begins_refl (m : List Bytes) : BeginsWith m m := .inl List.prefix_rfl

theorem BeginsWith.flatten {l m : List Bytes} (h : BeginsWith l m) : l.flatten <+: m.flatten := by
  rcases h with ⟨r, rfl⟩ | ⟨a, x, y, rfl, ⟨r, rfl⟩, z, rfl⟩
  · simp
  · exact ⟨z ++ r.flatten, by simp⟩

theorem written_same (hl : Local C.decTree) (hN : NoForgery C R bad) (hS : Sound C R) (ho : Opens R src)
    (he : C33.EnvOk env') (comps : List Comp) :
    ∀ (shown : Path) (id : Id) (cb cg : Forest Id) (d : Dir Bytes), Holds C R id d → CacheTrue C R cb → CacheOk C R cg →
      BeginsWith (writtenFrom C bad env comps shown id cb).1 (writtenFrom C src env' comps shown id cg).1 ∧
      ((writtenFrom C bad env comps shown id cb).2 = .ok () →
        writtenFrom C src env' comps shown id cg = writtenFrom C bad env comps shown id cb) := by
  induction comps with
  | nil => intro shown id cb cg d _ _ _; exact ⟨begins_nil _, fun _ => rfl⟩
  | cons a rest ih =>
    intro shown id cb cg d hd hcb hcg
    cases a with
    | cur => exact ih shown id cb cg d hd hcb hcg
    | other => exact ⟨begins_nil _, fun _ => rfl⟩
    | normal n =>
      obtain ⟨t, ht, hdt⟩ := hd
      obtain ⟨cg1, g1, hcg1, _⟩ := treeRead_complete hS ho hcg ht
      simp only [writtenFrom, g1]
      cases hb : treeRead C bad cb id with
      | error e => exact ⟨begins_nil _, by simp⟩
      | ok r =>
        obtain ⟨t', cb1⟩ := r
        obtain ⟨hcb1, hg⟩ := treeRead_genuine hl hN hcb hb
        have : t' = t := hcb1.right id t' t hg ht
        subst this
        dsimp only
        rcases child_rel hdt n with ⟨h2, _⟩ | ⟨⟨c, md⟩, ⟨⟨md', l⟩, sub⟩, h2, _, h4, h5⟩
        · simp only [h2]
          exact ⟨begins_nil _, by simp⟩
        · simp only [h2]
          cases c with
          | dir s =>
            obtain ⟨u, h6, h7⟩ := h5 s md rfl
            dsimp only
            by_cases hr : rest.isEmpty
            · simp only [hr, if_true]
              obtain ⟨cg2, g2, _⟩ := treeRead_complete hS ho hcg1 h6
              simp only [g2]
              cases hb2 : treeRead C bad cb1 s with
              | error e => exact ⟨begins_nil _, by simp⟩
              | ok r =>
                obtain ⟨u', cb2⟩ := r
                obtain ⟨hcb2, hg2⟩ := treeRead_genuine hl hN hcb1 hb2
                rw [hcb2.right s u' u hg2 h6]
                exact ⟨begins_refl _, fun _ => rfl⟩
            · simp only [hr]
              exact ih _ s cb1 cg1 sub ⟨u, h6, h7⟩ hcb1 hcg1
          | link tgt =>
            dsimp only
            obtain ⟨i1, i2⟩ := ih (shown ++ [n]) id cb1 cg1 d ⟨t', ht, hdt⟩ hcb1 hcg1
            refine ⟨i1.cons _, fun h => ?_⟩
            rw [i2 h]
          | file cs =>
            dsimp only
            by_cases hr : rest.isEmpty
            · simp only [hr, if_true]
              cases l with
              | none => exact h4.elim
              | some l =>
                cases l with
                | link _ => exact h4.elim
                | other => exact h4.elim
                | file x =>
                  obtain ⟨j1, j2⟩ := fileWritten_genuine (env := env) hN h4.2 ReaderState.new fromPacks_new
                  rw [fileWritten_sound hS ho he h4.2 _ C33.settled_new]
                  refine ⟨.inr ⟨[], _, x, rfl, List.prefix_rfl, j1⟩, fun h => ?_⟩
                  rw [j2 h, h]
            · simp only [hr]
              exact ⟨begins_nil _, by simp⟩

end Backpak
