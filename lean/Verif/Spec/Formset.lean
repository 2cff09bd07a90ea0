import Verif.Model.Formset

/-!
# Specification: settings FORM accepts without changing them

The constraints FORM puts on its buffers (in bytes; a word has four bytes), written independently of the way
`Setup.calc` reaches them.
-/

namespace SecDec.Formset

/-- The settings are consistent: FORM does not have to enlarge any of them. -/
structure Setup.Consistent (s : Setup) : Prop where
  /-- the smallest possible maximal size of a term -/
  term : 200 ≤ s.maxtermsize
  /-- two terms fit in the compress buffer -/
  compress : 2 * (4 * s.maxtermsize) ≤ s.compresssize
  /-- a term fits in the blocks used for reading and writing -/
  io : 4 * s.maxtermsize ≤ s.sortiosize
  /-- sixteen terms fit in the scratch buffers -/
  scratch : 16 * (4 * s.maxtermsize) ≤ s.scratchsize
  hide : 0 < s.hidesize → 16 * (4 * s.maxtermsize) ≤ s.hidesize
  threadScratch : 16 * (4 * s.maxtermsize) ≤ s.threadscratchsize
  threadOut : 16 * (4 * s.maxtermsize) ≤ s.threadscratchoutsize
  /-- sixteen terms fit in the small buffer, which has an extension and is at most half of the large buffer, if there is one -/
  small : 16 * (4 * s.maxtermsize) ≤ s.smallsize
  extension : s.smallsize * 3 / 2 ≤ s.smallextension
  large : 0 < s.largesize → 2 * s.smallsize ≤ s.largesize
  /-- every thread has a file patch, and there are at least four -/
  patches : s.threads ≤ s.filepatches ∧ 4 ≤ s.filepatches
  /-- the number of terms is a multiple of sixteen -/
  terms : ∃ k, s.termsinsmall = 16 * k
  /-- one hundred and one terms for every thread fit in the sort buffers -/
  threadBlocks : 0 ≤ s.threads → s.threads * (101 * (4 * s.maxtermsize)) ≤ s.largesize + s.smallextension
  /-- for every file patch, a block and two terms fit in the sort buffers -/
  patchBlocks : s.filepatches * (s.sortiosize + 4 * (2 + 2 * s.maxtermsize)) ≤ s.largesize + s.smallextension
  /-- the blocks use the available space -/
  blocks : (s.largesize + s.smallextension) / s.filepatches / 4 - 2 * s.maxtermsize - 2 ≤ s.sortiosize

/-- The settings `s` with the four large buffers resized by the factor `x` (`mul n x` is the rounded product) and a work space that
is large enough for the terms. -/
def Setup.resized (mul : ℤ → ℚ → ℤ) (s : Setup) (x : ℚ) : Setup where
  compresssize := s.compresssize
  filepatches := s.filepatches
  hidesize := s.hidesize
  largepatches := s.largepatches
  largesize := mul s.largesize x
  maxtermsize := s.maxtermsize
  numstorecaches := s.numstorecaches
  scratchsize := mul s.scratchsize x
  sizestorecache := s.sizestorecache
  smallextension := s.smallextension
  smallsize := mul s.smallsize x
  sortiosize := s.sortiosize
  termsinsmall := mul s.termsinsmall x
  threadbucketsize := s.threadbucketsize
  threads := s.threads
  threadscratchoutsize := s.threadscratchoutsize
  threadscratchsize := s.threadscratchsize
  workspace := max s.workspace (s.maxtermsize * 250)

/-- The estimated memory usage of the settings, rounded up to three digits if requested. -/
def Setup.usage (human : Bool) (s : Setup) : ℤ :=
  if human then roundHumanReadable s.calc.1.toNat true else s.calc.1

end SecDec.Formset
