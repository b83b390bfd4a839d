import Verif.Common.Bits
import Verif.Huff.Props
import Verif.Huff.PropsTable
import Verif.Huff.Safe
import Verif.Quant.Quality
import Verif.Quant.Recip
import Verif.Color.Props
import Verif.IO.Dest
import Verif.IO.Src
import Verif.Icc.Icc
import Verif.Transf.Edges
import Verif.Transf.Pixel
import Verif.Geom.Blocks
import Verif.Geom.Onepass
import Verif.Ext.Params
import Verif.TJ.Size
import Verif.Script.SearchProps
import Verif.Huff.OptForest
import Verif.Huff.Optimal
import Verif.Huff.OptRefine
import Verif.Huff.OptLimit
import Verif.Huff.OptSort
import Verif.Huff.OptProps
import Verif.Huff.OptCost
import Verif.Huff.OptMin
import Verif.Huff.OptRound
import Verif.Trellis.Model
import Verif.Trellis.Shrink
import Verif.Trellis.Opt
import Verif.Trellis.Chain
import Verif.Trellis.Best
import Verif.Trellis.DC
import Verif.Prog.Props
import Verif.Lossless.Props
import Verif.Lossless.Conform
import Verif.Mark.Write
import Verif.Mark.SafeProps
import Verif.Mark.ChunkProps
import Verif.Mark.RoundProps
import Verif.Mark.RoundTab
import Verif.Mark.RoundEx
import Verif.Pool.Props
import Verif.Pool.Virt
import Verif.Samp.Up
import Verif.Samp.UpProps
import Verif.Samp.Down
import Verif.Samp.DownProps
import Verif.Prep.Model
import Verif.Prep.Lemmas
import Verif.Prep.Simple
import Verif.Prep.Context
import Verif.Prep.Props
import Verif.Post.Model
import Verif.Post.Lemmas
import Verif.Post.Up
import Verif.Post.Ptr
import Verif.Post.Context
import Verif.Post.Simple
import Verif.Post.Props
import Verif.Post.Skip
import Verif.Post.SkipLemmas
import Verif.Post.SkipSim
import Verif.Post.SkipSimple
import Verif.Post.SkipCtx
import Verif.Post.SkipProps
import Verif.Rst.Model
import Verif.Rst.Props
import Verif.Rst.Chunk
import Verif.Huff.Fast
import Verif.Huff.Mcu
import Verif.Huff.Chunk
import Verif.Huff.ChunkProps
import Verif.Huff.Feed
import Verif.Huff.FeedProps
import Verif.Idct.Model
import Verif.Idct.Props
import Verif.Idct.Accuracy
import Verif.Arith.Props
import Verif.Arith.McuModel
import Verif.Arith.McuProps
import Verif.Arith.Scan
import Verif.Arith.Image
import Verif.Arith.Safe
import Verif.Api.CompProps
import Verif.Api.DecompProps
import Verif.Out.Props
import Verif.Merge.Row
import Verif.Merge.RowLemmas
import Verif.Merge.Model
import Verif.Merge.Ctl
import Verif.Merge.CtlSkip
import Verif.Merge.Props
import Verif.Fdct.Dering
import Verif.Fdct.DeringLemmas
import Verif.Fdct.DeringProps
import Verif.Fdct.Islow
import Verif.Fdct.IslowLemmas
import Verif.Fdct.Accuracy
import Verif.Fdct.Orth
import Verif.Fdct.Pipeline
import Verif.Fdct.PipelineProps
import Verif.Rst.Suffix
import Verif.Prog.Feed
import Verif.Prog.FeedLemmas
import Verif.Prog.FeedRefine
import Verif.Prog.FeedSafe
import Verif.Prog.FeedProps
import Verif.Quant1.Model
import Verif.Quant1.Spec
import Verif.Quant1.Counts
import Verif.Quant1.Levels
import Verif.Quant1.Tables
import Verif.Quant1.Rows
import Verif.Quant1.Ordered
import Verif.Quant1.Diffuse
import Verif.Quant1.Pass
import Verif.Quant1.Props
import Verif.File.Model
import Verif.File.Link
import Verif.File.Seq
import Verif.File.Step
import Verif.File.Write
import Verif.File.Tables
import Verif.File.Scans
import Verif.File.Loop
import Verif.File.Props
import Verif.File.Ex
import Verif.Quant2.Model
import Verif.Quant2.Spec
import Verif.Quant2.Boxes
import Verif.Quant2.Cut
import Verif.Quant2.Median
import Verif.Quant2.Colors
import Verif.Quant2.Nearest
import Verif.Quant2.Cache
import Verif.Quant2.Diffuse
import Verif.Quant2.Pass
import Verif.Quant2.Props
import Verif.Smooth.Model
import Verif.Smooth.Spec
import Verif.Smooth.BlockProof
import Verif.Smooth.Geo
import Verif.Smooth.Status
import Verif.Smooth.Props
import Verif.Smooth.Examples
import Verif.Crop.Model
import Verif.Crop.Exec
import Verif.Crop.Geom
import Verif.Crop.Rows
import Verif.Crop.Wipe
import Verif.Crop.Extend
import Verif.Crop.Parse
import Verif.Crop.Props
import Verif.Crop.Requant
import Verif.Ppm.Model
import Verif.Ppm.Safe
import Verif.Ppm.Content
import Verif.Ppm.Rows
import Verif.Ppm.Load
import Verif.Ppm.Props
import Verif.Gif.Model
import Verif.Gif.Safe
import Verif.Gif.Rows
import Verif.Gif.Props
import Verif.Gif.Codes
import Verif.Gif.Lzw
import Verif.Gif.Text
import Verif.Gif.Write
import Verif.Gif.Pack
import Verif.Gif.Round
import Verif.Gif.Trip
import Verif.Gif.Raw
import Verif.Gif.Head
import Verif.Gif.Whole
import Verif.Tga.Model
import Verif.Tga.Safe
import Verif.Tga.Content
import Verif.Tga.Trip
import Verif.Tga.Props
import Verif.MapFile.Model
import Verif.MapFile.Props
import Verif.MapFile.Short
import Verif.Switch.Model
import Verif.Switch.Safe
import Verif.Switch.Content
import Verif.Switch.Refuse
