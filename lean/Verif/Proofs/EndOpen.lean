import Verif.Proofs.AnyReport
import Verif.Spec.EndOpen

/-! # Where the decoder stands at the end of arbitrary bytes -/
namespace Verif.Proofs
open Verif.Model Header Dec OptDec Spec

/-- At the end of arbitrary bytes in the place of options the decoder waits for more of them exactly if they end within an option. -/
theorem end_options (r : List UInt8) (d : Dec) (hds : d.st = .options) (hr : Ready d.opt) (hne : r ≠ [] ∨ d.opt.st = .optionValueDone) :
    (fin true [] (feed true d r).2.1).st = .options ↔ endsOpen r = true := by
  generalize hm : r.length = m
  induction m using Nat.strongRecOn generalizing r d with
  | ind m ih =>
    cases r with
    | nil =>
      have hov : d.opt.st = .optionValueDone := by
        rcases hne with h | h
        · exact absurd rfl h
        · exact h
      rw [feed_nil, endsOpen_nil]
      simp [fin, hds, hov]
    | cons w bs =>
      by_cases hw : w = 0xFF
      · subst hw
        rw [marker_feed true d bs hds hr, endsOpen_marker]
        have : (feed true { d with st := .optionsDone, opt := { d.opt with st := .payload } } bs).2.1.st ≠ .options := by
          cases bs with
          | nil => rw [feed_nil]; simp
          | cons b bs =>
            rw [payload_feed true _ (b :: bs) rfl (by simp)]
            simp
        rw [fin_of_ne this]
        simp [this]
      · have hh := any_header d.opt d.holder w bs hr hw
        have cut : ∀ (o' : OptDec) (h' : Holder), o'.st ≠ .optionValueDone →
            Q d.opt d.holder (w :: bs) o' h' [] → (fin true [] (feed true d (w :: bs)).2.1).st = .options := by
          intro o' h' a2 q
          rw [q.1 d true hds rfl rfl, feed_nil]
          simp [fin, hds, a2]
        cases h1 : readExt (w.toNat / 16) bs with
        | none =>
          rw [h1] at hh
          obtain ⟨o', l, -, a2, -, q, -⟩ := hh
          simp [endsOpen_cut_delta hw h1, cut _ _ a2 q]
        | some p =>
          obtain ⟨delta, bs1⟩ := p
          simp only [h1] at hh
          cases h2 : readExt (w.toNat % 16) bs1 with
          | none =>
            rw [h2] at hh
            obtain ⟨o', l, -, a2, -, q, -⟩ := hh
            simp [endsOpen_cut_length hw h1 h2, cut _ _ a2 q]
          | some p =>
            obtain ⟨len, bs2⟩ := p
            simp only [h2] at hh
            obtain ⟨o', -, q, he⟩ := hh
            rw [endsOpen_option hw h1 h2]
            by_cases hb2 : bs2 = []
            · subst hb2
              simp [cut _ _ he.2.2.1 q]
            · by_cases hlt : bs2.length < len % 65536
              · obtain ⟨o2, g1, g2⟩ := hend_cut true
                  { d with opt := o', holder := ⟨d.holder.number + UInt16.ofNat delta, UInt16.ofNat len⟩ } bs2 len hds he rfl hb2 hlt
                rw [q.1 d true hds rfl rfl, g2]
                simp [fin, hds, g1, hlt]
              · have hlen : (bs2.take (len % 65536)).length = len % 65536 := by simp; omega
                have he' : HEnd o' (bs2.take (len % 65536)).length := by
                  rw [hlen]
                  obtain ⟨x1, x2, x3⟩ := he
                  exact ⟨x1, by rw [x2]; apply UInt16.toNat_inj.1; simp, x3⟩
                obtain ⟨o2, g1, g2⟩ := hend_phase true
                  { d with opt := o', holder := ⟨d.holder.number + UInt16.ofNat delta, UInt16.ofNat len⟩ }
                  (bs2.take (len % 65536)) (bs2.drop (len % 65536)) hds he' (by rw [hlen]; omega)
                  (by rw [hlen]; apply UInt16.toNat_inj.1; simp) (by simpa using hb2)
                rw [List.take_append_drop] at g2
                have hlt1 := readExt_length h1
                have hlt2 := readExt_length h2
                rw [if_neg (by simp [hb2, hlt])]
                rw [q.1 d true hds rfl rfl, g2]
                exact ih (bs2.drop (len % 65536)).length (by simp at hm ⊢; omega) (bs2.drop (len % 65536))
                  { d with opt := o2, holder := ⟨d.holder.number + UInt16.ofNat delta, UInt16.ofNat len⟩ } hds (Or.inr g1) (Or.inr g1) rfl

/-- The same for whole datagrams that hold their header and token. -/
theorem end_options_any (junk : Dec) (hj : junk.tbuf.length = 8) (b0 b1 b2 b3 : UInt8) (tok rest : List UInt8)
    (ht : tok.length = (b0 &&& 0x0F).toNat) (h8 : tok.length ≤ 8) :
    (fin true [] (feed true (fresh junk) (b0 :: b1 :: b2 :: b3 :: (tok ++ rest))).2.1).st = .options ↔ endsOpen rest = true := by
  rw [header_feed true (fresh junk) b0 b1 b2 b3 (tok ++ rest) rfl]
  generalize hd1 : ({ fresh junk with st := .headerDone, hdr := ⟨b0, b1, b2, b3⟩, hpos := 4 } : Dec) = d1
  have hd1t : d1.hdr.tokenLength.toNat = tok.length := by rw [← hd1, ht]; rfl
  have hd1s : d1.st = .headerDone := by rw [← hd1]
  have hd1b : d1.tbuf.length = 8 := by rw [← hd1]; exact hj
  have none_ : ∀ d2 : Dec, d2.st ≠ .options → ((fin true [] d2).st = .options ↔ endsOpen [] = true) := by
    intro d2 hs2
    rw [fin_of_ne hs2, endsOpen_nil]
    simp [hs2]
  have after : ∀ d2 : Dec, d2.st = .tokenDone → rest ≠ [] → ((fin true [] (feed true d2 rest).2.1).st = .options ↔ endsOpen rest = true) := by
    intro d2 hs2 hr
    rw [start_feed true d2 rest hs2 hr]
    exact end_options rest _ rfl (Or.inl rfl) (Or.inl hr)
  by_cases hto : tok = []
  · subst hto
    rw [List.nil_append]
    simp only [List.length_nil] at hd1t
    by_cases hr : rest = []
    · subst hr; rw [feed_nil]; exact none_ d1 (by simp [hd1s])
    · rw [token_feed_empty true d1 rest hd1s hd1t hr]
      exact after _ rfl hr
  · obtain ⟨d2, e1, -, -, -, e5⟩ := token_feed true tok d1 rest hd1s hto hd1t h8 hd1b
    rw [e5]
    by_cases hr : rest = []
    · subst hr; rw [feed_nil]; exact none_ d2 (by simp [e1])
    · exact after d2 e1 hr

end Verif.Proofs
